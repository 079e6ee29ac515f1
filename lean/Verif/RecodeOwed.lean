import Verif.RecodeCrash

/-!
# How much the recoder can still give out
-/

namespace Divans.Recode

/-- Bytes in the ring that were not given out, and the rest of the command. -/
def owed (s : St) (c : Cmd) : Nat := pend s + (c.size - s.sub)

theorem copySome_owed {s s' : St} {n : Nat} (g : Good s) (d want : Nat) (h : copySome s d want = some (s', some n)) :
    pend s' = pend s + n ∧ n ≤ want ∧ s'.sub = s.sub := by
  have hd := g.dec
  have hsl := spaceLeft_eq s g
  unfold copySome at h
  cases hsrc : srcIndex s d with
  | none => rw [hsrc] at h; cases h
  | some src =>
    rw [hsrc] at h
    simp only at h
    by_cases h1 : s.len < src
    · rw [if_pos h1] at h; cases h
    rw [if_neg h1] at h
    by_cases h2 : src < s.dec ∧ s.dec - src < chunk s src want
    · rw [if_pos h2] at h; cases h
    rw [if_neg h2] at h
    cases h3 : slice? s.mem src (chunk s src want) with
    | none => rw [h3] at h; cases h
    | some data =>
      rw [h3] at h
      simp only at h
      have hl := slice_length h3
      have hch : chunk s src want ≤ s.len - s.dec ∧ chunk s src want ≤ spaceLeft s ∧ chunk s src want ≤ want := by
        unfold chunk
        simp only
        by_cases h5 : src < s.dec
        · rw [if_pos h5]; omega
        · rw [if_neg h5]; omega
      obtain ⟨mem, e1, a1⟩ := write_adv s g data (by omega) (by omega)
      rw [e1] at h
      simp only [Option.some.injEq, Prod.mk.injEq] at h
      obtain ⟨rfl, rfl⟩ := h
      rw [hl] at a1
      exact ⟨by rw [a1.pend, hl], hch.2.2, rfl⟩

theorem pend_sub (s : St) (k : Nat) : pend { s with sub := k } = pend s := rfl

/-- `parse` moves bytes from the command to the ring. -/
theorem parse_owed {s s' : St} {c : Cmd} {r : Res} (g : Good s) (h : parse s c = some (s', r)) : owed s' c ≤ owed s c := by
  cases c with
  | other =>
    simp only [parse, Option.some.injEq, Prod.mk.injEq] at h
    obtain ⟨rfl, -⟩ := h
    exact Nat.le_refl _
  | lit data =>
    simp only [parse] at h
    unfold parseLiteral at h
    by_cases h0 : data.length < s.sub
    · rw [if_pos h0] at h
      cases h
      exact Nat.le_refl _
    rw [if_neg h0] at h
    obtain ⟨s1, e, a, hsub⟩ := put_spec s g (data.drop s.sub)
    rw [e] at h
    simp only [Option.some.injEq, Prod.mk.injEq] at h
    obtain ⟨rfl, -⟩ := h
    have h1 := List.length_drop (i := s.sub) (l := data)
    have h2 := a.pend
    rw [List.length_take] at h2
    simp only [owed, Cmd.size, pend_sub]
    omega
  | dict w f =>
    simp only [parse] at h
    unfold parseDict at h
    by_cases h1 : spaceLeft s < w.length
    · rw [if_pos h1] at h; cases h; exact Nat.le_refl _
    rw [if_neg h1] at h
    by_cases h2 : f ≠ 0 ∧ w.length ≠ f
    · rw [if_pos h2] at h; cases h; exact Nat.le_refl _
    rw [if_neg h2] at h
    by_cases h3 : s.sub ≠ 0
    · rw [if_pos h3] at h
      by_cases h4 : s.sub = w.length
      · rw [if_pos h4] at h; cases h; exact Nat.le_refl _
      · rw [if_neg h4] at h; cases h
    · rw [if_neg h3] at h
      obtain ⟨s1, e, a, -⟩ := put_spec s g w
      rw [e] at h
      simp only at h
      rw [if_neg (by omega)] at h
      cases h
      have h2 := a.pend
      rw [List.length_take] at h2
      simp only [owed, Cmd.size, pend_sub]
      omega
  | copy d n =>
    simp only [parse] at h
    unfold parseCopy at h
    by_cases h0 : n < s.sub
    · rw [if_pos h0] at h; cases h
    rw [if_neg h0] at h
    simp only at h
    by_cases h1 : d ≤ repeatMax ∧ d < n - s.sub
    · rw [if_pos h1] at h
      unfold copyRepeat at h
      simp only at h
      cases h2 : readBack s d d with
      | none => rw [h2] at h; cases h
      | some buf =>
        rw [h2] at h
        simp only at h
        have hb := readBack_length h2
        by_cases h3 : d = 0
        · rw [if_pos h3] at h; cases h
        rw [if_neg h3] at h
        obtain ⟨m, hm⟩ : ∃ m, m = min (n - s.sub) (spaceLeft s) := ⟨_, rfl⟩
        rw [← hm] at h
        have hmul : m / d * d ≤ m := Nat.div_mul_le_self m d
        obtain ⟨s1, e1, a1, hs1⟩ := putTimes_spec buf (m / d) s g (by rw [hb]; omega)
        rw [e1] at h
        simp only at h
        obtain ⟨s2, e2, a2, hs2⟩ := put_spec s1 a1.good (buf.take (m - m / d * d))
        rw [e2] at h
        simp only [Option.some.injEq, Prod.mk.injEq] at h
        obtain ⟨rfl, -⟩ := h
        rw [hb] at hs1
        have hfl : (List.replicate (m / d) buf).flatten.length = m / d * d := by simp [hb]
        have p1 := a1.pend
        rw [hfl] at p1
        have p2 := a2.pend
        rw [List.length_take] at p2
        have := List.length_take (i := m - m / d * d) (l := buf)
        simp only [owed, Cmd.size, pend_sub]
        omega
    · rw [if_neg h1] at h
      cases h2 : copySome s d (min (n - s.sub) d) with
      | none => rw [h2] at h; cases h
      | some x =>
        obtain ⟨s1, on⟩ := x
        rw [h2] at h
        cases on with
        | none =>
          cases h
          unfold copySome at h2
          cases hsrc : srcIndex s d with
          | none => rw [hsrc] at h2; cases h2; exact Nat.le_refl _
          | some src =>
            rw [hsrc] at h2
            simp only at h2
            by_cases h3 : s.len < src
            · rw [if_pos h3] at h2; cases h2
            rw [if_neg h3] at h2
            by_cases h4 : src < s.dec ∧ s.dec - src < chunk s src (min (n - s.sub) d)
            · rw [if_pos h4] at h2; cases h2
            rw [if_neg h4] at h2
            cases h5 : slice? s.mem src (chunk s src (min (n - s.sub) d)) with
            | none => rw [h5] at h2; cases h2
            | some data =>
              rw [h5] at h2
              simp only at h2
              cases h6 : write? s.mem s.dec data with
              | none => rw [h6] at h2; cases h2
              | some mem => rw [h6] at h2; simp at h2
        | some k =>
          simp only [Option.some.injEq, Prod.mk.injEq] at h
          obtain ⟨rfl, -⟩ := h
          obtain ⟨k1, k2, k3⟩ := copySome_owed g d _ h2
          simp only [owed, Cmd.size, pend_sub]
          omega

/-- `flush` gives out what is in the ring. -/
theorem flush_owed {s s' : St} {room : Nat} {o : List UInt8} {r : Res} (g : Good s) (h : flush s room = some (s', o, r)) :
    pend s' + o.length = pend s ∧ s'.sub = s.sub ∧ Good s' ∧ r ≠ .fail := by
  obtain ⟨t, e1, g1, -, -, hsub, -, hp, -⟩ := flush_spec s g room
  rw [e1] at h
  simp only [Option.some.injEq, Prod.mk.injEq] at h
  obtain ⟨rfl, rfl, rfl⟩ := h
  have := pending_length s g
  refine ⟨by rw [List.length_take]; omega, hsub, g1, ?_⟩
  by_cases h0 : pend s ≤ room
  · rw [if_pos h0]; simp
  · rw [if_neg h0]; simp

/-- A call of the recoder gives out what was in the ring or comes from the command. -/
theorem encodeLoop_owed {c : Cmd} : ∀ (fuel : Nat) {s s' : St} {room : Nat} {o : List UInt8} {r : Res}, Good s →
    encodeLoop fuel s c room = .done (s', o, r) →
    (r = .more → owed s' c + o.length ≤ owed s c) ∧ (r = .ok → pend s' + o.length ≤ owed s c) := by
  intro fuel
  induction fuel with
  | zero => intro s s' room o r g h; cases h
  | succ fuel ih =>
    intro s s' room o r g h
    simp only [encodeLoop] at h
    cases hp : parse s c with
    | none => rw [hp] at h; cases h
    | some x =>
      obtain ⟨s1, r1⟩ := x
      have g1 := (parse_any g c hp).good
      have hle := parse_owed g hp
      rw [hp] at h
      cases r1 with
      | fail =>
        simp only [Run.done.injEq, Prod.mk.injEq] at h
        obtain ⟨rfl, rfl, rfl⟩ := h
        exact ⟨by simp, by simp⟩
      | ok =>
        simp only at h
        unfold finishCmd at h
        by_cases h0 : s1.dec / 1024 = s1.out / 1024
        · rw [if_pos h0] at h
          simp only [Run.done.injEq, Prod.mk.injEq] at h
          obtain ⟨rfl, rfl, rfl⟩ := h
          refine ⟨by simp, fun _ => ?_⟩
          rw [pend_sub]
          unfold owed at hle
          simp only [List.length_nil]
          unfold owed
          omega
        · rw [if_neg h0] at h
          cases hf : flush s1 room with
          | none => rw [hf] at h; cases h
          | some y =>
            obtain ⟨s2, o2, r2⟩ := y
            obtain ⟨f1, f2, f3, f4⟩ := flush_owed g1 hf
            rw [hf] at h
            cases r2 with
            | fail => exact absurd rfl f4
            | ok =>
              simp only [Run.done.injEq, Prod.mk.injEq] at h
              obtain ⟨rfl, rfl, rfl⟩ := h
              refine ⟨by simp, fun _ => ?_⟩
              rw [pend_sub]
              unfold owed at hle ⊢
              omega
            | more =>
              simp only [Run.done.injEq, Prod.mk.injEq] at h
              obtain ⟨rfl, rfl, rfl⟩ := h
              refine ⟨fun _ => ?_, by simp⟩
              unfold owed at hle ⊢
              omega
      | more =>
        simp only at h
        cases hf : flush s1 room with
        | none => rw [hf] at h; cases h
        | some y =>
          obtain ⟨s2, o2, r2⟩ := y
          obtain ⟨f1, f2, f3, f4⟩ := flush_owed g1 hf
          rw [hf] at h
          have h12 : owed s2 c + o2.length ≤ owed s c := by
            unfold owed at hle ⊢
            omega
          cases r2 with
          | fail => exact absurd rfl f4
          | more =>
            simp only [Run.done.injEq, Prod.mk.injEq] at h
            obtain ⟨rfl, rfl, rfl⟩ := h
            exact ⟨fun _ => h12, by simp⟩
          | ok =>
            simp only at h
            cases he : encodeLoop fuel s2 c (room - o2.length) with
            | spin => rw [he] at h; cases h
            | panic => rw [he] at h; cases h
            | done z =>
              obtain ⟨s3, o3, r3⟩ := z
              rw [he] at h
              simp only [Run.prepend, Run.done.injEq, Prod.mk.injEq] at h
              obtain ⟨rfl, rfl, rfl⟩ := h
              obtain ⟨k1, k2⟩ := ih f3 he
              refine ⟨fun hr => ?_, fun hr => ?_⟩
              · have := k1 hr
                rw [List.length_append]; omega
              · have := k2 hr
                rw [List.length_append]; omega

end Divans.Recode
