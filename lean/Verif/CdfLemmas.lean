import Verif.Cdf
import Verif.NumProps
import Verif.AnsProps

namespace Divans.Cdf
open Divans.Num

/-- The count of symbol `s` (`BaseCDF::pdf`, /repo/src/probability/interface.rs:63-70). -/
def pdf (c : Cdf) (s : Nat) : Int := get c s - (if s = 0 then 0 else get c (s - 1))

/-- Every symbol can be coded: counts positive, total within `i16`, and no count so small that its
slot would vanish by rounding. -/
def Usable (c : Cdf) : Prop :=
  max c ≤ 32767 ∧ ∀ s, s < 16 → 1 ≤ pdf c s ∧ max c ≤ 2 ^ 14 * pdf c s

theorem get_max (c : Cdf) : get c 15 = max c := rfl

theorem get_step (c : Cdf) (s : Nat) : get c (s + 1) = get c s + pdf c (s + 1) := by
  simp [pdf]

theorem get_mono (c : Cdf) (h : ∀ s, s < 16 → 1 ≤ pdf c s) (s t : Nat) (hst : s ≤ t) (ht : t < 16) :
    get c s ≤ get c t := by
  induction t with
  | zero => have : s = 0 := by omega
            subst this; exact le_refl _
  | succ t ih =>
    by_cases hs : s = t + 1
    · subst hs; exact le_refl _
    · have h1 := ih (by omega) (by omega)
      have h2 := h (t + 1) ht
      rw [get_step]; omega

theorem get_pos (c : Cdf) (h : ∀ s, s < 16 → 1 ≤ pdf c s) (s : Nat) (hs : s < 16) : 1 ≤ get c s := by
  have h0 := h 0 (by omega)
  have := get_mono c h 0 s (by omega) hs
  simp [pdf] at h0
  omega

/-- Scaled cumulative count: the boundary between slots. -/
def bound (c : Cdf) (s : Nat) : Int := get c s * 2 ^ 15 / max c

/-- Lower boundary of slot `s`. -/
def lower (c : Cdf) (s : Nat) : Int := if s = 0 then 0 else bound c (s - 1)

theorem lower_succ (c : Cdf) (s : Nat) : lower c (s + 1) = bound c s := by simp [lower]

theorem max_pos (c : Cdf) (h : Usable c) : 1 ≤ max c := by
  have := get_pos c (fun s hs => (h.2 s hs).1) 15 (by omega)
  rwa [get_max] at this

theorem bound_gap (c : Cdf) (h : Usable c) (s : Nat) (hs : s < 16) :
    lower c s + 2 ≤ bound c s := by
  have hM := max_pos c h
  obtain ⟨h1, h2⟩ := h.2 s hs
  unfold lower bound
  by_cases h0 : s = 0
  · subst h0
    simp [pdf] at h1 h2 ⊢
    rw [Int.le_ediv_iff_mul_le (by omega)]
    omega
  · rw [if_neg h0]
    obtain ⟨t, rfl⟩ : ∃ t, s = t + 1 := ⟨s - 1, by omega⟩
    rw [get_step, Nat.add_sub_cancel]
    have e : get c t * 2 ^ 15 / max c + 2 = (get c t * 2 ^ 15 + 2 * max c) / max c := by
      rw [Int.add_mul_ediv_right _ _ (by omega)]
    rw [e]
    apply Int.ediv_le_ediv (by omega)
    omega

theorem bound_last (c : Cdf) (h : Usable c) : bound c 15 = 2 ^ 15 := by
  have hM := max_pos c h
  unfold bound
  rw [get_max, Int.mul_ediv_cancel_left _ (by omega)]

theorem bound_mono (c : Cdf) (h : Usable c) (s t : Nat) (hst : s ≤ t) (ht : t < 16) :
    bound c s ≤ bound c t := by
  have hM := max_pos c h
  have := get_mono c (fun s hs => (h.2 s hs).1) s t hst ht
  unfold bound
  apply Int.ediv_le_ediv (by omega)
  omega

theorem lower_nonneg (c : Cdf) (h : Usable c) (s : Nat) (hs : s < 16) : 0 ≤ lower c s := by
  have hM := max_pos c h
  unfold lower bound
  split_ifs
  · exact le_refl _
  · apply Int.ediv_nonneg _ (by omega)
    have := get_pos c (fun s hs => (h.2 s hs).1) (s - 1) (by omega)
    omega

theorem bound_le (c : Cdf) (h : Usable c) (s : Nat) (hs : s < 16) : bound c s ≤ 2 ^ 15 := by
  rw [← bound_last c h]; exact bound_mono c h s 15 (by omega) (by omega)

/-- What the theorems need of the division used. -/
def ExactDiv (div : Int → Int) (m : Int) : Prop := ∀ v, 0 ≤ v → v < 2 ^ 31 → div v = v / m

theorem exactDiv_plain (c : Cdf) (_hM : 1 ≤ max c) : ExactDiv (divByMax c) (max c) := by
  intro v hv _
  unfold divByMax
  exact Int.tdiv_eq_ediv_of_nonneg hv

theorem exactDiv_opt (c : Cdf) (hM : 1 ≤ max c) (hM2 : max c ≤ 32767) :
    ExactDiv (Opt.new c).divByMax (max c) := by
  intro v hv hv2
  unfold Opt.divByMax Opt.new lookupDivisor
  dsimp only
  have hu : u16 (max c) = max c := by unfold u16; omega
  rw [hu]
  obtain ⟨n, rfl⟩ : ∃ n : Nat, v = n := ⟨v.toNat, by omega⟩
  obtain ⟨m, hm⟩ : ∃ m : Nat, max c = m := ⟨(max c).toNat, by omega⟩
  rw [hm, Int.toNat_natCast, fast_divide_exact m n (by omega) (by omega) (by omega)]
  push_cast; rfl

theorem shl15 (x : Int) : x <<< 15 = x * 2 ^ 15 := by
  rw [Int.shiftLeft_eq]

theorem symRange_eq (div : Int → Int) (c : Cdf) (h : Usable c) (hd : ExactDiv div (max c))
    (s : Nat) (hs : s < 16) :
    symRange div c s = ⟨lower c s + 1, bound c s - lower c s - 1⟩ := by
  have hM := max_pos c h
  have hM2 := h.1
  have hp := fun s hs => (h.2 s hs).1
  have hdv : ∀ s, s < 16 → div (get c s <<< 15) = bound c s := by
    intro s hs
    have h1 := get_pos c hp s hs
    have h2 := get_mono c hp s 15 (by omega) (by omega)
    rw [get_max] at h2
    rw [shl15, hd _ (by omega) (by omega)]
    rfl
  have hl : (if s ≠ 0 then div (get c (s - 1) <<< 15) else 0) = lower c s := by
    unfold lower
    by_cases h0 : s = 0
    · simp [h0]
    · rw [if_pos h0, if_neg h0, hdv _ (by omega)]
  unfold symRange
  simp only [hl, hdv s hs]
  have g1 := bound_gap c h s hs
  have g2 := lower_nonneg c h s hs
  have g3 := bound_le c h s hs
  have e1 : i16 (lower c s) = lower c s := i16_id _ (by omega) (by omega)
  have e2 : i16 (lower c s + 1) = lower c s + 1 := i16_id _ (by omega) (by omega)
  rw [e1, e2]
  congr 1
  unfold i16; omega

theorem toSlot_eq (c : Cdf) (h : Usable c) (s : Nat) (hs : s < 16) :
    ((Range.toSlot ⟨lower c s + 1, bound c s - lower c s - 1⟩).start : Int) = lower c s + 1 ∧
    ((Range.toSlot ⟨lower c s + 1, bound c s - lower c s - 1⟩).freq : Int) =
      bound c s - lower c s - 1 := by
  have g1 := bound_gap c h s hs
  have g2 := lower_nonneg c h s hs
  have g3 := bound_le c h s hs
  simp only [Range.toSlot, u16]
  omega

theorem firstAbove_eq (c : Cdf) (r : Int) (n s0 s : Nat) (h1 : s0 ≤ s) (h2 : s ≤ s0 + n)
    (hlow : ∀ j, s0 ≤ j → j < s → get c j ≤ r) (hhigh : s < s0 + n → r < get c s) :
    firstAbove c r n s0 = s := by
  induction n generalizing s0 with
  | zero => simp [firstAbove]; omega
  | succ n ih =>
    rw [firstAbove]
    by_cases he : s0 = s
    · subst he
      rw [if_pos (hhigh (by omega))]
    · have := hlow s0 (le_refl _) (by omega)
      rw [if_neg (by omega)]
      exact ih (s0 + 1) (by omega) (by omega) (fun j hj hj2 => hlow j (by omega) hj2)
        (fun hlt => hhigh (by omega))

theorem lookupSym_eq (c : Cdf) (h : Usable c) (s : Nat) (hs : s < 16) (off : Int)
    (h1 : lower c s + 1 ≤ off) (h2 : off < bound c s) : lookupSym c off = s := by
  have hM := max_pos c h
  have hM2 := h.1
  have hp := fun s hs => (h.2 s hs).1
  have g2 := lower_nonneg c h s hs
  have g3 := bound_le c h s hs
  -- off * M < get c s * 2^15
  have hup : off * max c < get c s * 2 ^ 15 := by
    have h3 : off + 1 ≤ bound c s := by omega
    have h4 : (off + 1) * max c ≤ get c s * 2 ^ 15 := by
      rw [bound, Int.le_ediv_iff_mul_le (by omega)] at h3
      exact h3
    have : (off + 1) * max c = off * max c + max c := by ring
    omega
  have hdn : s ≠ 0 → get c (s - 1) * 2 ^ 15 ≤ off * max c := by
    intro h0
    have h3 : bound c (s - 1) < off := by
      have : lower c s = bound c (s - 1) := by simp [lower, h0]
      omega
    rw [bound, Int.ediv_lt_iff_lt_mul (by omega)] at h3
    omega
  have hoff : 0 ≤ off * max c := Int.mul_nonneg (by omega) (by omega)
  have hlt : off * max c < 2 ^ 15 * 32768 := by
    have : get c s ≤ 32767 := by
      have := get_mono c hp s 15 (by omega) (by omega)
      rw [get_max] at this; omega
    omega
  unfold lookupSym
  rw [Int.shiftRight_eq_div_pow, i16_id _ (by omega) (by omega)]
  apply firstAbove_eq
  · omega
  · omega
  · intro j _ hj
    have := get_mono c hp j (s - 1) (by omega) (by omega)
    have := hdn (by omega)
    omega
  · intro _
    omega

end Divans.Cdf
