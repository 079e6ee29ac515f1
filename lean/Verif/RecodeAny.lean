import Verif.RecodeProps

/-!
# The recoder on arbitrary commands

What holds of a call of the recoder whatever the command is: it writes no more than there is room, asks
for more room only when it has used all there was, keeps its indices inside the ring, and does not come to
an end only for a copy whose distance is the ring size (C14) or a dictionary word that does not fit into the
ring.
-/

namespace Divans.Recode

theorem slice_length {mem : List UInt8} {i n : Nat} {o : List UInt8} (h : slice? mem i n = some o) : o.length = n := by
  unfold slice? at h
  by_cases hc : i + n ≤ mem.length
  · rw [if_pos hc] at h
    cases h
    rw [List.length_take, List.length_drop]; omega
  · rw [if_neg hc] at h; cases h

theorem readBack_length {s : St} {d n : Nat} {o : List UInt8} (h : readBack s d n = some o) : o.length = n := by
  unfold readBack at h
  by_cases h1 : s.dec < d
  · rw [if_pos h1] at h
    simp only at h
    by_cases h2 : d - s.dec ≤ s.len
    · rw [if_pos h2] at h
      cases h3 : slice? s.mem (s.len - (d - s.dec)) (min (d - s.dec) n) with
      | none => rw [h3] at h; cases h
      | some o1 =>
        rw [h3] at h
        simp only at h
        have hl := slice_length h3
        by_cases h4 : n - min (d - s.dec) n ≠ 0
        · rw [if_pos h4] at h
          cases h5 : slice? s.mem 0 (n - min (d - s.dec) n) with
          | none => rw [h5] at h; cases h
          | some o2 =>
            rw [h5] at h
            cases h
            rw [List.length_append, hl, slice_length h5]; omega
        · rw [if_neg h4] at h
          cases h
          omega
    · rw [if_neg h2] at h; cases h
  · rw [if_neg h1] at h
    by_cases h2 : n ≠ 0
    · rw [if_pos h2] at h; exact slice_length h
    · rw [if_neg h2] at h
      cases h
      simp only [List.length_nil]; omega

/-- What a call of `parse` does, whatever the command. -/
structure Moved (c : Cmd) (s s' : St) (r : Res) : Prop where
  good : Good s'
  len : s'.len = s.len
  sub : r = .more → s.sub ≤ s'.sub
  go : r = .more → pend s = 0 → 1 < s.len → (∀ n, c ≠ .copy s.len n) →
    (∀ w f, c = .dict w f → w.length < s.len) → s.sub < s'.sub ∧ s'.sub ≤ c.size

theorem parseLiteral_any {s s' : St} {r : Res} (g : Good s) (data : List UInt8) (h : parseLiteral s data = some (s', r)) :
    Moved (.lit data) s s' r := by
  unfold parseLiteral at h
  by_cases h0 : data.length < s.sub
  · rw [if_pos h0] at h
    cases h
    exact ⟨g, rfl, by simp, by simp⟩
  rw [if_neg h0] at h
  obtain ⟨s1, e1, a1, hs1⟩ := put_spec s g (data.drop s.sub)
  rw [e1] at h
  simp only [Option.some.injEq, Prod.mk.injEq] at h
  obtain ⟨rfl, rfl⟩ := h
  have hsl := spaceLeft_eq s g
  refine ⟨a1.good.setSub _, a1.len, fun _ => ?_, ?_⟩
  · simp only; omega
  · intro hr hp hL _ _
    by_cases hn : min (data.drop s.sub).length (spaceLeft s) ≠ (data.drop s.sub).length
    · simp only [Cmd.size]
      rw [List.length_drop] at hn ⊢
      omega
    · rw [if_neg hn] at hr; cases hr

theorem copySome_any {s s' : St} {n : Nat} (g : Good s) (d want : Nat) (h : copySome s d want = some (s', some n)) :
    Good s' ∧ s'.len = s.len ∧ s'.sub = s.sub ∧ n ≤ want ∧
      (pend s = 0 → 1 < s.len → d ≠ s.len → 0 < want → 0 < d → 0 < n) := by
  have hd := g.dec
  have ho := g.out
  have hsl := spaceLeft_eq s g
  unfold copySome at h
  cases hsrc : srcIndex s d with
  | none => rw [hsrc] at h; cases h
  | some src =>
    rw [hsrc] at h
    simp only at h
    by_cases h1 : s.len < src
    · rw [if_pos h1] at h; cases h
    rw [if_neg h1] at h
    by_cases h2 : src < s.dec ∧ s.dec - src < chunk s src want
    · rw [if_pos h2] at h; cases h
    rw [if_neg h2] at h
    cases h3 : slice? s.mem src (chunk s src want) with
    | none => rw [h3] at h; cases h
    | some data =>
      rw [h3] at h
      simp only at h
      have hl := slice_length h3
      have hch : chunk s src want ≤ s.len - s.dec ∧ chunk s src want ≤ spaceLeft s ∧ chunk s src want ≤ want := by
        unfold chunk
        simp only
        by_cases h5 : src < s.dec
        · rw [if_pos h5]; omega
        · rw [if_neg h5]; omega
      obtain ⟨mem, e1, a1⟩ := write_adv s g data (by omega) (by omega)
      rw [e1] at h
      simp only [Option.some.injEq, Prod.mk.injEq] at h
      obtain ⟨rfl, rfl⟩ := h
      rw [hl] at a1
      refine ⟨a1.good, a1.len, rfl, hch.2.2, ?_⟩
      intro hp hL hne hw hd0
      unfold srcIndex at hsrc
      unfold chunk
      simp only
      by_cases h5 : d ≤ s.dec
      · rw [if_pos h5] at hsrc
        cases hsrc
        rw [if_pos (by omega)]
        omega
      · rw [if_neg h5] at hsrc
        by_cases h6 : d ≤ s.dec + s.len
        · rw [if_pos h6] at hsrc
          cases hsrc
          by_cases h7 : s.dec + s.len - d < s.dec
          · rw [if_pos h7]; omega
          · rw [if_neg h7]; omega
        · rw [if_neg h6] at hsrc; cases hsrc

theorem parseCopy_any {s s' : St} {r : Res} (g : Good s) (d num : Nat) (h : parseCopy s d num = some (s', r)) :
    Moved (.copy d num) s s' r := by
  have hsl := spaceLeft_eq s g
  unfold parseCopy at h
  by_cases h0 : num < s.sub
  · rw [if_pos h0] at h; cases h
  rw [if_neg h0] at h
  simp only at h
  by_cases h1 : d ≤ repeatMax ∧ d < num - s.sub
  · rw [if_pos h1] at h
    unfold copyRepeat at h
    simp only at h
    cases h2 : readBack s d d with
    | none => rw [h2] at h; cases h
    | some buf =>
      rw [h2] at h
      simp only at h
      have hb := readBack_length h2
      by_cases h3 : d = 0
      · rw [if_pos h3] at h; cases h
      rw [if_neg h3] at h
      obtain ⟨n, hn⟩ : ∃ n, n = min (num - s.sub) (spaceLeft s) := ⟨_, rfl⟩
      rw [← hn] at h
      have hmul : n / d * d ≤ n := Nat.div_mul_le_self n d
      obtain ⟨s1, e1, a1, hs1⟩ := putTimes_spec buf (n / d) s g (by rw [hb]; omega)
      rw [e1] at h
      simp only at h
      obtain ⟨s2, e2, a2, hs2⟩ := put_spec s1 a1.good (buf.take (n - n / d * d))
      have hsl1 := spaceLeft_eq s1 a1.good
      have hrem : n - n / d * d < d := by
        have := Nat.mod_lt n (Nat.pos_of_ne_zero h3)
        have := Nat.div_add_mod n d
        rw [Nat.mul_comm] at this
        omega
      have hfl : (List.replicate (n / d) buf).flatten.length = n / d * d := by
        simp [hb]
      have hk : min (buf.take (n - n / d * d)).length (spaceLeft s1) = n - n / d * d := by
        rw [List.length_take, hb, hsl1, a1.len, a1.pend, hfl]
        omega
      rw [hk] at e2 a2
      rw [e2] at h
      simp only [Option.some.injEq, Prod.mk.injEq] at h
      obtain ⟨rfl, rfl⟩ := h
      rw [hb] at hs1
      refine ⟨a2.good.setSub _, a2.len.trans a1.len, fun _ => ?_, ?_⟩
      · simp only; omega
      · intro hr hp hL _ _
        simp only [Cmd.size]
        omega
  · rw [if_neg h1] at h
    cases h2 : copySome s d (min (num - s.sub) d) with
    | none => rw [h2] at h; cases h
    | some x =>
      obtain ⟨s1, on⟩ := x
      rw [h2] at h
      cases on with
      | none =>
        simp only [Option.some.injEq, Prod.mk.injEq] at h
        obtain ⟨rfl, rfl⟩ := h
        refine ⟨?_, ?_, by simp, by simp⟩
        all_goals
          unfold copySome at h2
          cases hsrc : srcIndex s d with
          | none => rw [hsrc] at h2; cases h2; first | exact g | rfl
          | some src =>
            rw [hsrc] at h2
            simp only at h2
            by_cases h3 : s.len < src
            · rw [if_pos h3] at h2; cases h2
            rw [if_neg h3] at h2
            by_cases h4 : src < s.dec ∧ s.dec - src < chunk s src (min (num - s.sub) d)
            · rw [if_pos h4] at h2; cases h2
            rw [if_neg h4] at h2
            cases h5 : slice? s.mem src (chunk s src (min (num - s.sub) d)) with
            | none => rw [h5] at h2; cases h2
            | some data =>
              rw [h5] at h2
              simp only at h2
              cases h6 : write? s.mem s.dec data with
              | none => rw [h6] at h2; cases h2
              | some mem => rw [h6] at h2; simp at h2
      | some n =>
        simp only [Option.some.injEq, Prod.mk.injEq] at h
        obtain ⟨rfl, rfl⟩ := h
        obtain ⟨k1, k2, k3, k4, k5⟩ := copySome_any g d _ h2
        refine ⟨k1.setSub _, k2, fun _ => by simp only; omega, ?_⟩
        intro hr hp hL hc _
        have hne : n ≠ num - s.sub := by
          intro h0
          rw [if_neg (by simp [h0])] at hr
          cases hr
        have hd0 : 0 < d := by
          rcases Nat.eq_zero_or_pos d with h0 | h0
          · exfalso
            apply h1
            refine ⟨by simp [h0], ?_⟩
            omega
          · exact h0
        have := k5 hp hL (fun h0 => hc num (by rw [h0])) (by omega) hd0
        simp only [Cmd.size]
        omega

theorem parse_any {s s' : St} {r : Res} (g : Good s) (c : Cmd) (h : parse s c = some (s', r)) : Moved c s s' r := by
  cases c with
  | lit data => exact parseLiteral_any g data h
  | copy d n => exact parseCopy_any g d n h
  | other =>
    simp only [parse, Option.some.injEq, Prod.mk.injEq] at h
    obtain ⟨rfl, rfl⟩ := h
    exact ⟨g, rfl, by simp, by simp⟩
  | dict w f =>
    have hsl := spaceLeft_eq s g
    simp only [parse] at h
    unfold parseDict at h
    by_cases h0 : spaceLeft s < w.length
    · rw [if_pos h0] at h
      cases h
      refine ⟨g, rfl, fun _ => Nat.le_refl _, ?_⟩
      intro _ hp hL _ hw
      have := hw w f rfl
      omega
    rw [if_neg h0] at h
    by_cases h1 : f ≠ 0 ∧ w.length ≠ f
    · rw [if_pos h1] at h
      cases h
      exact ⟨g, rfl, by simp, by simp⟩
    rw [if_neg h1] at h
    by_cases h2 : s.sub ≠ 0
    · rw [if_pos h2] at h
      by_cases h3 : s.sub = w.length
      · rw [if_pos h3] at h
        cases h
        exact ⟨g, rfl, by simp, by simp⟩
      · rw [if_neg h3] at h; cases h
    rw [if_neg h2] at h
    obtain ⟨s1, e1, a1, hs1⟩ := put_spec s g w
    rw [e1] at h
    simp only at h
    by_cases h3 : min w.length (spaceLeft s) ≠ w.length
    · rw [if_pos h3] at h; cases h
    · rw [if_neg h3] at h
      cases h
      exact ⟨a1.good.setSub _, a1.len, by simp, by simp⟩

/-- `flush` never writes more than there is room, and asks for more only when it has filled all of it. -/
theorem flush_any {s : St} (g : Good s) (room : Nat) :
    ∃ s' o r, flush s room = some (s', o, r) ∧ Good s' ∧ s'.len = s.len ∧ s'.sub = s.sub ∧ o.length ≤ room ∧
      (r = .ok ∧ pend s' = 0 ∨ r = .more ∧ o.length = room) := by
  obtain ⟨s', e1, g1, hm, -, hsub, -, hp, -⟩ := flush_spec s g room
  refine ⟨s', _, _, e1, g1, by simp [St.len, hm], hsub, by rw [List.length_take]; omega, ?_⟩
  by_cases h0 : pend s ≤ room
  · rw [if_pos h0]
    exact Or.inl ⟨rfl, by omega⟩
  · rw [if_neg h0]
    refine Or.inr ⟨rfl, ?_⟩
    rw [List.length_take, pending_length s g]
    omega

theorem finishCmd_any {s : St} (g : Good s) (room : Nat) :
    ∃ s' o r, finishCmd s room = .done (s', o, r) ∧ Good s' ∧ s'.len = s.len ∧ o.length ≤ room ∧
      (r = .ok ∨ r = .more ∧ o.length = room) := by
  unfold finishCmd
  by_cases h0 : s.dec / 1024 = s.out / 1024
  · rw [if_pos h0]
    exact ⟨_, _, _, rfl, g.setSub _, rfl, by simp, Or.inl rfl⟩
  · rw [if_neg h0]
    obtain ⟨s', o, r, e1, g1, hl, -, ho, hr⟩ := flush_any g room
    rw [e1]
    rcases hr with ⟨rfl, -⟩ | ⟨rfl, hr⟩
    · exact ⟨_, _, _, rfl, g1.setSub _, hl, ho, Or.inl rfl⟩
    · exact ⟨_, _, _, rfl, g1, hl, ho, Or.inr ⟨rfl, hr⟩⟩

theorem encodeLoop_any : ∀ (fuel : Nat) {s s' : St} {c : Cmd} {room : Nat} {o : List UInt8} {r : Res}, Good s →
    encodeLoop fuel s c room = .done (s', o, r) →
    Good s' ∧ s'.len = s.len ∧ o.length ≤ room ∧ (r = .more → o.length = room) := by
  intro fuel
  induction fuel with
  | zero => intro s s' c room o r g h; cases h
  | succ fuel ih =>
    intro s s' c room o r g h
    simp only [encodeLoop] at h
    cases hp : parse s c with
    | none => rw [hp] at h; cases h
    | some x =>
      obtain ⟨s1, r1⟩ := x
      have hm := parse_any g c hp
      rw [hp] at h
      cases r1 with
      | fail =>
        simp only [Run.done.injEq, Prod.mk.injEq] at h
        obtain ⟨rfl, rfl, rfl⟩ := h
        exact ⟨hm.good, hm.len, by simp, by simp⟩
      | ok =>
        simp only at h
        obtain ⟨s2, o2, r2, e2, g2, l2, b2, f2⟩ := finishCmd_any hm.good room
        rw [e2] at h
        simp only [Run.done.injEq, Prod.mk.injEq] at h
        obtain ⟨rfl, rfl, rfl⟩ := h
        refine ⟨g2, l2.trans hm.len, b2, fun hr => ?_⟩
        rcases f2 with f2 | f2
        · rw [f2] at hr; cases hr
        · exact f2.2
      | more =>
        simp only at h
        obtain ⟨s2, o2, r2, e2, g2, l2, -, b2, f2⟩ := flush_any hm.good room
        rw [e2] at h
        rcases f2 with ⟨rfl, f2⟩ | ⟨rfl, f2⟩
        · simp only at h
          cases he : encodeLoop fuel s2 c (room - o2.length) with
          | spin => rw [he] at h; cases h
          | panic => rw [he] at h; cases h
          | done y =>
            obtain ⟨s3, o3, r3⟩ := y
            rw [he] at h
            simp only [Run.prepend, Run.done.injEq, Prod.mk.injEq] at h
            obtain ⟨rfl, rfl, rfl⟩ := h
            obtain ⟨k1, k2, k3, k4⟩ := ih g2 he
            refine ⟨k1, k2.trans (l2.trans hm.len), ?_, fun hr => ?_⟩
            · rw [List.length_append]; omega
            · have := k4 hr
              rw [List.length_append]; omega
        · simp only [Run.done.injEq, Prod.mk.injEq] at h
          obtain ⟨rfl, rfl, rfl⟩ := h
          exact ⟨g2, l2.trans hm.len, b2, fun _ => f2⟩

theorem encodeLoop_ends {c : Cmd} : ∀ (fuel : Nat) {s : St} {room : Nat}, Good s → 1 < s.len →
    (∀ n, c ≠ .copy s.len n) → (∀ w f, c = .dict w f → w.length < s.len) → need c s ≤ fuel →
    encodeLoop fuel s c room ≠ .spin := by
  intro fuel
  induction fuel with
  | zero =>
    intro s room g hL hc hw hn
    unfold need at hn
    split at hn <;> omega
  | succ fuel ih =>
    intro s room g hL hc hw hn
    simp only [encodeLoop]
    cases hp : parse s c with
    | none => simp
    | some x =>
      obtain ⟨s1, r1⟩ := x
      have hm := parse_any g c hp
      cases r1 with
      | fail => simp
      | ok =>
        simp only
        obtain ⟨s2, o2, r2, e2, -⟩ := finishCmd_any hm.good room
        rw [e2]
        simp
      | more =>
        simp only
        obtain ⟨s2, o2, r2, e2, g2, l2, hs2, b2, f2⟩ := flush_any hm.good room
        rw [e2]
        rcases f2 with ⟨rfl, f2⟩ | ⟨rfl, f2⟩
        · simp only
          have hlen : s2.len = s.len := l2.trans hm.len
          have hnd : need c s2 ≤ fuel := by
            unfold need at hn ⊢
            rw [if_pos f2, hs2]
            have h1 := hm.sub rfl
            by_cases h0 : pend s = 0
            · rw [if_pos h0] at hn
              have := hm.go rfl h0 hL hc hw
              omega
            · rw [if_neg h0] at hn
              omega
          have := ih (s := s2) (room := room - o2.length) g2 (by omega) (by rw [hlen]; exact hc) (by rw [hlen]; exact hw) hnd
          cases he : encodeLoop fuel s2 c (room - o2.length) with
          | spin => exact absurd he this
          | panic => simp [Run.prepend]
          | done y => simp [Run.prepend]
        · simp

/-- C14: whatever the command, the recoder comes to an end, unless the command is a copy whose distance is the
ring size, or a dictionary word that does not fit into the ring. -/
theorem encodeCmd_ends (s : St) (g : Good s) (hL : 1 < s.len) (c : Cmd) (room : Nat) (hc : ∀ n, c ≠ .copy s.len n)
    (hw : ∀ w f, c = .dict w f → w.length < s.len) : encodeCmd s c room ≠ .spin :=
  encodeLoop_ends _ g hL hc hw (need_le c s)

/-- C14: whatever the command, a call of the recoder that returns has kept its indices inside the ring and written no
more than there was room; when it asks for more room it has used all there was. -/
theorem encodeCmd_bounds (s : St) (g : Good s) (c : Cmd) (room : Nat) (s' : St) (o : List UInt8) (r : Res)
    (h : encodeCmd s c room = .done (s', o, r)) :
    Good s' ∧ s'.len = s.len ∧ o.length ≤ room ∧ (r = .more → o.length = room) := encodeLoop_any _ g h

/-- A full ring and a copy from before its beginning meet the hypotheses. -/
example : ∃ s : St, Good s ∧ 1 < s.len ∧ pend s = 7 ∧ (∀ n, Cmd.copy 11 n ≠ .copy s.len n) ∧
    encodeCmd s (.copy 11 50) 7 ≠ .spin := by
  refine ⟨⟨List.replicate 8 0, 7, 0, 0, 0⟩, ⟨by decide, by decide⟩, by decide, by decide, fun n h => ?_, by decide +kernel⟩
  have : (11 : Nat) = 8 := by
    simpa [St.len] using h
  omega

end Divans.Recode
