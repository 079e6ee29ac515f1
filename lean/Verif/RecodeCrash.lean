import Verif.RecodeAny

/-!
# What can make the recoder panic or run for ever

`Verif.RecodeAny` says what a call that returns has done.  Here are the commands for which it does not return:
copies from distance 0, or from as far back as the ring is long or farther, and words that do not fit into the
ring.
-/

namespace Divans.Recode

theorem slice_some {mem : List UInt8} {i n : Nat} (h : i + n ≤ mem.length) : ∃ o, slice? mem i n = some o :=
  ⟨_, if_pos h⟩

theorem readBack_total {s : St} (g : Good s) {d : Nat} (hd : d ≤ s.len) (n : Nat) (hn : n ≤ d) : ∃ o, readBack s d n = some o := by
  have h1 := g.dec
  have hml : s.len = s.mem.length := rfl
  unfold readBack
  by_cases h2 : s.dec < d
  · rw [if_pos h2]
    simp only
    rw [if_pos (by omega)]
    obtain ⟨o1, e1⟩ := slice_some (mem := s.mem) (i := s.len - (d - s.dec)) (n := min (d - s.dec) n) (by omega)
    rw [e1]
    simp only
    by_cases h3 : n - min (d - s.dec) n ≠ 0
    · rw [if_pos h3]
      obtain ⟨o2, e2⟩ := slice_some (mem := s.mem) (i := 0) (n := n - min (d - s.dec) n) (by omega)
      rw [e2]
      exact ⟨_, rfl⟩
    · rw [if_neg h3]; exact ⟨_, rfl⟩
  · rw [if_neg h2]
    by_cases h3 : n ≠ 0
    · rw [if_pos h3]; exact slice_some (by omega)
    · rw [if_neg h3]; exact ⟨_, rfl⟩

theorem copySome_crash {s : St} (g : Good s) {d want : Nat} (hw : want ≤ d) (h : copySome s d want = none) :
    s.len < d ∧ 0 < want := by
  have hd := g.dec
  have ho := g.out
  have hsl := spaceLeft_eq s g
  have hml : s.len = s.mem.length := rfl
  unfold copySome at h
  cases hsrc : srcIndex s d with
  | none => rw [hsrc] at h; cases h
  | some src =>
    rw [hsrc] at h
    simp only at h
    have hcase : (d ≤ s.dec ∧ src = s.dec - d) ∨ (s.dec < d ∧ d ≤ s.dec + s.len ∧ src = s.dec + s.len - d) := by
      unfold srcIndex at hsrc
      by_cases h5 : d ≤ s.dec
      · rw [if_pos h5] at hsrc; cases hsrc; exact Or.inl ⟨h5, rfl⟩
      · rw [if_neg h5] at hsrc
        by_cases h6 : d ≤ s.dec + s.len
        · rw [if_pos h6] at hsrc; cases hsrc; exact Or.inr ⟨by omega, h6, rfl⟩
        · rw [if_neg h6] at hsrc; cases hsrc
    rw [if_neg (show ¬ s.len < src by omega)] at h
    have hch : chunk s src want ≤ s.len - s.dec ∧ chunk s src want ≤ s.len - src ∧ chunk s src want ≤ spaceLeft s ∧ chunk s src want ≤ want := by
      unfold chunk
      simp only
      by_cases h5 : src < s.dec
      · rw [if_pos h5]; omega
      · rw [if_neg h5]; omega
    by_cases h2 : src < s.dec ∧ s.dec - src < chunk s src want
    · omega
    rw [if_neg h2] at h
    obtain ⟨o, e1⟩ := slice_some (mem := s.mem) (i := src) (n := chunk s src want) (by omega)
    rw [e1] at h
    simp only at h
    have hl := slice_length e1
    obtain ⟨mem, e2, -⟩ := write_adv s g o (by omega) (by omega)
    rw [e2] at h
    cases h

/-- The copies for which `parse` panics. -/
theorem parse_crash {s : St} {c : Cmd} (g : Good s) (hL : repeatMax ≤ s.len) (hs : SubOk c s.sub) (h : parse s c = none) :
    ∃ d n, c = .copy d n ∧ 0 < n ∧ (d = 0 ∨ s.len < d) := by
  cases c with
  | other => cases h
  | lit data =>
    exfalso
    simp only [parse] at h
    unfold parseLiteral at h
    simp only [SubOk] at hs
    rw [if_neg (by omega)] at h
    obtain ⟨s', e, -⟩ := put_spec s g (data.drop s.sub)
    rw [e] at h
    cases h
  | dict w f =>
    exfalso
    simp only [parse] at h
    unfold parseDict at h
    by_cases h1 : spaceLeft s < w.length
    · rw [if_pos h1] at h; cases h
    rw [if_neg h1] at h
    by_cases h2 : f ≠ 0 ∧ w.length ≠ f
    · rw [if_pos h2] at h; cases h
    rw [if_neg h2] at h
    by_cases h3 : s.sub ≠ 0
    · rw [if_pos h3] at h
      rw [if_pos (hs.resolve_left h3)] at h
      cases h
    · rw [if_neg h3] at h
      obtain ⟨s', e, -⟩ := put_spec s g w
      rw [e] at h
      simp only at h
      rw [if_neg (by omega)] at h
      cases h
  | copy d n =>
    refine ⟨d, n, rfl, ?_⟩
    simp only [parse] at h
    unfold parseCopy at h
    simp only [SubOk] at hs
    rw [if_neg (by omega)] at h
    simp only at h
    by_cases h1 : d ≤ repeatMax ∧ d < n - s.sub
    · rw [if_pos h1] at h
      refine ⟨by omega, ?_⟩
      rcases Nat.eq_zero_or_pos d with h0 | h0
      · exact Or.inl h0
      exfalso
      unfold copyRepeat at h
      simp only at h
      obtain ⟨buf, e1⟩ := readBack_total g (d := d) (by omega) d (Nat.le_refl _)
      rw [e1] at h
      simp only at h
      rw [if_neg (by omega)] at h
      have hb := readBack_length e1
      have hsl := spaceLeft_eq s g
      have hmul : min (n - s.sub) (spaceLeft s) / d * d ≤ min (n - s.sub) (spaceLeft s) := Nat.div_mul_le_self _ d
      obtain ⟨s1, e2, a1, -⟩ := putTimes_spec buf (min (n - s.sub) (spaceLeft s) / d) s g (by rw [hb]; omega)
      rw [e2] at h
      simp only at h
      obtain ⟨s2, e3, -⟩ := put_spec s1 a1.good (buf.take (min (n - s.sub) (spaceLeft s) - min (n - s.sub) (spaceLeft s) / d * d))
      rw [e3] at h
      cases h
    · rw [if_neg h1] at h
      cases h2 : copySome s d (min (n - s.sub) d) with
      | none =>
        obtain ⟨k1, k2⟩ := copySome_crash g (Nat.min_le_right _ _) h2
        exact ⟨by omega, Or.inr k1⟩
      | some x =>
        obtain ⟨s1, on⟩ := x
        rw [h2] at h
        cases on <;> cases h

/-- Where the recoder is inside a command after `parse`. -/
theorem parse_sub {s s' : St} {c : Cmd} {r : Res} (g : Good s) (hs : SubOk c s.sub) (h : parse s c = some (s', r)) (hr : r ≠ .fail) :
    SubOk c s'.sub := by
  cases c with
  | other =>
    simp only [parse, Option.some.injEq, Prod.mk.injEq] at h
    obtain ⟨rfl, rfl⟩ := h
    exact hs
  | lit data =>
    simp only [parse] at h
    unfold parseLiteral at h
    simp only [SubOk] at hs ⊢
    rw [if_neg (by omega)] at h
    obtain ⟨s1, e, -, hsub⟩ := put_spec s g (data.drop s.sub)
    rw [e] at h
    simp only [Option.some.injEq, Prod.mk.injEq] at h
    obtain ⟨rfl, -⟩ := h
    have := List.length_drop (i := s.sub) (l := data)
    simp only
    omega
  | dict w f =>
    simp only [parse] at h
    unfold parseDict at h
    by_cases h1 : spaceLeft s < w.length
    · rw [if_pos h1] at h; cases h; exact hs
    rw [if_neg h1] at h
    by_cases h2 : f ≠ 0 ∧ w.length ≠ f
    · rw [if_pos h2] at h; cases h; exact absurd rfl hr
    rw [if_neg h2] at h
    by_cases h3 : s.sub ≠ 0
    · rw [if_pos h3] at h
      rw [if_pos (hs.resolve_left h3)] at h
      cases h
      exact hs
    · rw [if_neg h3] at h
      obtain ⟨s1, e, -⟩ := put_spec s g w
      rw [e] at h
      simp only at h
      rw [if_neg (by omega)] at h
      cases h
      exact Or.inr rfl
  | copy d n =>
    simp only [parse] at h
    unfold parseCopy at h
    simp only [SubOk] at hs ⊢
    rw [if_neg (by omega)] at h
    simp only at h
    by_cases h1 : d ≤ repeatMax ∧ d < n - s.sub
    · rw [if_pos h1] at h
      unfold copyRepeat at h
      simp only at h
      cases h2 : readBack s d d with
      | none => rw [h2] at h; cases h
      | some buf =>
        rw [h2] at h
        simp only at h
        have hb := readBack_length h2
        by_cases h3 : d = 0
        · rw [if_pos h3] at h; cases h
        rw [if_neg h3] at h
        obtain ⟨m, hm⟩ : ∃ m, m = min (n - s.sub) (spaceLeft s) := ⟨_, rfl⟩
        rw [← hm] at h
        have hmul : m / d * d ≤ m := Nat.div_mul_le_self m d
        obtain ⟨s1, e1, a1, hs1⟩ := putTimes_spec buf (m / d) s g (by rw [hb]; omega)
        rw [e1] at h
        simp only at h
        obtain ⟨s2, e2, -, hs2⟩ := put_spec s1 a1.good (buf.take (m - m / d * d))
        rw [e2] at h
        simp only [Option.some.injEq, Prod.mk.injEq] at h
        obtain ⟨rfl, -⟩ := h
        rw [hb] at hs1
        have := List.length_take (i := m - m / d * d) (l := buf)
        simp only
        omega
    · rw [if_neg h1] at h
      cases h2 : copySome s d (min (n - s.sub) d) with
      | none => rw [h2] at h; cases h
      | some x =>
        obtain ⟨s1, on⟩ := x
        rw [h2] at h
        cases on with
        | none => cases h; exact absurd rfl hr
        | some k =>
          simp only [Option.some.injEq, Prod.mk.injEq] at h
          obtain ⟨rfl, -⟩ := h
          obtain ⟨-, -, k3, k4, -⟩ := copySome_any g d _ h2
          simp only
          omega

/-- A call that panics has a copy from distance 0 or from farther back than the ring is long; after a call that
returns, the position inside the command is right. -/
theorem encodeLoop_crash {c : Cmd} : ∀ (fuel : Nat) {s : St} {room : Nat}, Good s → repeatMax ≤ s.len → SubOk c s.sub →
    (encodeLoop fuel s c room = .panic → ∃ d n, c = .copy d n ∧ 0 < n ∧ (d = 0 ∨ s.len < d)) ∧
      ∀ s' o r, encodeLoop fuel s c room = .done (s', o, r) → (r = .ok → s'.sub = 0) ∧ (r = .more → SubOk c s'.sub) := by
  intro fuel
  induction fuel with
  | zero => intro s room g hL hs; exact ⟨by simp [encodeLoop], by simp [encodeLoop]⟩
  | succ fuel ih =>
    intro s room g hL hs
    simp only [encodeLoop]
    cases hp : parse s c with
    | none =>
      refine ⟨fun _ => parse_crash g hL hs hp, ?_⟩
      intro s' o r h
      cases h
    | some x =>
      obtain ⟨s1, r1⟩ := x
      have hm := parse_any g c hp
      cases r1 with
      | fail =>
        simp only
        refine ⟨by simp, ?_⟩
        intro s' o r h
        cases h
        exact ⟨by simp, by simp⟩
      | ok =>
        simp only
        have hsub := parse_sub g hs hp (by simp)
        unfold finishCmd
        by_cases h0 : s1.dec / 1024 = s1.out / 1024
        · rw [if_pos h0]
          refine ⟨by simp, ?_⟩
          intro s' o r h
          cases h
          exact ⟨fun _ => rfl, by simp⟩
        · rw [if_neg h0]
          obtain ⟨s2, o2, r2, e1, -, -, h3, -, h4⟩ := flush_any hm.good room
          rw [e1]
          rcases h4 with ⟨rfl, -⟩ | ⟨rfl, -⟩
          · refine ⟨by simp, ?_⟩
            intro s' o r h
            cases h
            exact ⟨fun _ => rfl, by simp⟩
          · refine ⟨by simp, ?_⟩
            intro s' o r h
            cases h
            exact ⟨by simp, fun _ => by rw [h3]; exact hsub⟩
      | more =>
        simp only
        have hsub := parse_sub g hs hp (by simp)
        obtain ⟨s2, o2, r2, e1, g2, h2, h3, -, h4⟩ := flush_any hm.good room
        rw [e1]
        rcases h4 with ⟨rfl, -⟩ | ⟨rfl, -⟩
        · simp only
          obtain ⟨i1, i2⟩ := ih (s := s2) (room := room - o2.length) g2 (by rw [h2, hm.len]; exact hL) (by rw [h3]; exact hsub)
          cases he : encodeLoop fuel s2 c (room - o2.length) with
          | panic =>
            refine ⟨fun _ => ?_, by simp [Run.prepend]⟩
            rw [← hm.len, ← h2]
            exact i1 he
          | spin => exact ⟨by simp [Run.prepend], by simp [Run.prepend]⟩
          | done y =>
            obtain ⟨s3, o3, r3⟩ := y
            refine ⟨by simp [Run.prepend], ?_⟩
            intro s' o r h
            simp only [Run.prepend, Run.done.injEq, Prod.mk.injEq] at h
            obtain ⟨rfl, -, rfl⟩ := h
            exact i2 _ _ _ he
        · refine ⟨by simp, ?_⟩
          intro s' o r h
          cases h
          exact ⟨by simp, fun _ => by rw [h3]; exact hsub⟩

/-- A copy of no bytes is never unfinished. -/
theorem empty_copy {s s' : St} {d : Nat} {r : Res} (g : Good s) (hs : s.sub = 0) (h : parse s (.copy d 0) = some (s', r)) : r ≠ .more := by
  simp only [parse] at h
  unfold parseCopy at h
  rw [if_neg (by omega)] at h
  simp only at h
  rw [if_neg (by omega)] at h
  cases h2 : copySome s d (min (0 - s.sub) d) with
  | none => rw [h2] at h; cases h
  | some x =>
    obtain ⟨s1, on⟩ := x
    rw [h2] at h
    cases on with
    | none => cases h; simp
    | some k =>
      simp only [Option.some.injEq, Prod.mk.injEq] at h
      obtain ⟨-, rfl⟩ := h
      obtain ⟨-, -, -, k4, -⟩ := copySome_any g d _ h2
      rw [if_neg (by omega)]
      simp

/-- The commands a recoder with a ring of `L` bytes cannot carry out: copies from distance 0, copies from as far back
as the ring is long or farther, words that do not fit into the ring. -/
def Harmful (L : Nat) : Cmd → Prop
  | .copy d n => 0 < n ∧ (d = 0 ∨ L ≤ d)
  | .dict w _ => L ≤ w.length
  | _ => False

/-- C65, the recoder: only harmful commands make a call panic or run for ever. -/
theorem encodeCmd_crash {s : St} {c : Cmd} {room : Nat} (g : Good s) (hL : repeatMax ≤ s.len) (hs : SubOk c s.sub)
    (h : encodeCmd s c room = .panic ∨ encodeCmd s c room = .spin) : Harmful s.len c := by
  rcases h with h | h
  · obtain ⟨d, n, rfl, hn, hd⟩ := (encodeLoop_crash _ g hL hs).1 h
    exact ⟨hn, by omega⟩
  · have hL1 : 1 < s.len := by
      have : repeatMax = 64 := rfl
      omega
    cases c with
    | lit data => exact absurd h (encodeCmd_ends s g hL1 _ room (by simp) (by simp))
    | other => exact absurd h (encodeCmd_ends s g hL1 _ room (by simp) (by simp))
    | dict w f =>
      unfold Harmful
      rcases Nat.lt_or_ge w.length s.len with h0 | h0
      · exact absurd h (encodeCmd_ends s g hL1 _ room (by simp) (fun w' f' hw => by cases hw; exact h0))
      · exact h0
    | copy d n =>
      unfold Harmful
      by_cases hd : d = s.len
      · rcases Nat.eq_zero_or_pos n with h0 | h0
        · exfalso
          subst h0
          have hs0 : s.sub = 0 := by
            simp only [SubOk] at hs; omega
          unfold encodeCmd Cmd.size at h
          simp only [encodeLoop] at h
          cases hp : parse s (.copy d 0) with
          | none => rw [hp] at h; cases h
          | some x =>
            obtain ⟨s1, r1⟩ := x
            rw [hp] at h
            cases r1 with
            | fail => cases h
            | more => exact absurd rfl (empty_copy g hs0 hp)
            | ok =>
              simp only at h
              obtain ⟨s2, o, r, e, -⟩ := finishCmd_any (parse_any g _ hp).good room
              rw [e] at h
              cases h
        · exact ⟨h0, by omega⟩
      · exact absurd h (encodeCmd_ends s g hL1 _ room (fun m hm => by cases hm; exact hd rfl) (by simp))

/-- A ring of 64 bytes with a copy from 65 bytes back meets the hypotheses. -/
example : ∃ s : St, Good s ∧ repeatMax ≤ s.len ∧ SubOk (.copy 65 2) s.sub ∧ encodeCmd s (.copy 65 2) 7 = .panic := by
  refine ⟨⟨List.replicate 64 0, 3, 0, 0, 0⟩, ⟨by decide, by decide⟩, by decide, by simp [SubOk], by decide +kernel⟩

end Divans.Recode
