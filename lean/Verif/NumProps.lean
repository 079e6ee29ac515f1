import Verif.DivLutProof
import Mathlib.Tactic.Ring
import Mathlib.Tactic.Linarith
import Mathlib.Tactic.NormNum

/-!
Property theorems for the reciprocal division (C08).
-/
namespace Divans.Num

theorem bitLen_bounds (d : Nat) (h : d ≠ 0) : 2 ^ (bitLen d - 1) ≤ d ∧ d < 2 ^ bitLen d ∧ 1 ≤ bitLen d := by
  simp only [bitLen, if_neg h, Nat.add_sub_cancel]
  exact ⟨Nat.log2_self_le h, Nat.lt_log2_self, by omega⟩

/-- Rounding-up reciprocal: `⌊(⌊P/d⌋+1)·n / P⌋ = ⌊n/d⌋` when `n·d ≤ P`. -/
theorem recip_div (P n d : Nat) (hd : 0 < d) (hn : n * d < P) :
    ((P / d + 1) * n) / P = n / d := by
  have hP : 0 < P := by omega
  have h1 := Nat.div_add_mod P d
  have h2 := Nat.mod_lt P hd
  have h3 := Nat.div_add_mod n d
  have h4 := Nat.mod_lt n hd
  generalize hq : P / d = q at *
  generalize hr : P % d = r at *
  generalize hk : n / d = k at *
  generalize hs : n % d = s at *
  -- (q+1) * d = P + (d - r)
  have e1 : (q + 1) * d = P + (d - r) := by
    have : (q + 1) * d = d * q + d := by ring
    omega
  rw [Nat.div_eq_iff hP]
  have hmul : (q + 1) * n * d = P * n + (d - r) * n := by
    calc (q + 1) * n * d = ((q + 1) * d) * n := by ring
      _ = _ := by rw [e1]; ring
  have hle : (d - r) * n ≤ d * n := Nat.mul_le_mul_right _ (by omega)
  have hdn : d * n < P := by rw [Nat.mul_comm]; exact hn
  constructor
  · -- k * P ≤ (q+1) * n
    by_contra hlt
    push Not at hlt
    have : (q + 1) * n * d < k * P * d := Nat.mul_lt_mul_of_pos_right hlt hd
    have h5 : k * P * d ≤ P * n := by
      calc k * P * d = P * (d * k) := by ring
        _ ≤ P * n := Nat.mul_le_mul_left _ (by omega)
    omega
  · -- (q+1) * n ≤ P - 1 + k * P
    by_contra hlt
    push Not at hlt
    have h6 : (k + 1) * P ≤ (q + 1) * n := by
      have : (k + 1) * P = k * P + P := by ring
      omega
    have h7 : (k + 1) * P * d ≤ (q + 1) * n * d := Nat.mul_le_mul_right _ h6
    have h8 : (k + 1) * P * d = P * n + P * (d - s) := by
      have : d * k + s + (d - s) = d * k + d := by omega
      calc (k + 1) * P * d = P * (d * k + d) := by ring
        _ = P * (n + (d - s)) := by rw [← this, h3]
        _ = _ := by ring
    have h9 : P ≤ P * (d - s) := Nat.le_mul_of_pos_right _ (by omega)
    omega

/-- The multiplier plus `2^31` is the rounded-up reciprocal. -/
theorem mul_eq (d l : Nat) (hd : 0 < d) (hl : d ≤ 2 ^ l) :
    ((2 ^ l - d) <<< 31) / d + 1 + 2 ^ 31 = 2 ^ (l + 31) / d + 1 := by
  rw [Nat.shiftLeft_eq]
  have : 2 ^ (l + 31) = (2 ^ l - d) * 2 ^ 31 + d * 2 ^ 31 := by
    rw [← Nat.add_mul, Nat.sub_add_cancel hl, pow_add]
  rw [this, Nat.add_mul_div_left _ _ hd]
  omega

theorem div_pow_shift (x : Int) (k : Nat) : x >>> k = x / 2 ^ k := Int.shiftRight_eq_div_pow x k

theorem i16_id (x : Int) (h1 : -2 ^ 15 ≤ x) (h2 : x < 2 ^ 15) : i16 x = x := by unfold i16; omega

theorem i32_id (x : Int) (h1 : -2 ^ 31 ≤ x) (h2 : x < 2 ^ 31) : i32 x = x := by unfold i32; omega

theorem i64_id (x : Int) (h1 : -2 ^ 63 ≤ x) (h2 : x < 2 ^ 63) : i64 x = x := by unfold i64; omega

/-- The fast division with the formula's reciprocal is exact. -/
theorem fastDivide_formula (d n : Nat) (hd : 1 ≤ d) (hd2 : d < 2 ^ 16) (hn : n < 2 ^ 31) :
    fastDivide (n : Int) (((2 ^ bitLen d - d) <<< 31) / d + 1, bitLen d - 1) = ((n / d : Nat) : Int) := by
  obtain ⟨hb1, hb2, hb3⟩ := bitLen_bounds d (by omega)
  obtain ⟨l, hl⟩ : ∃ l, bitLen d = l + 1 := ⟨bitLen d - 1, by omega⟩
  rw [hl] at hb1 hb2 ⊢
  simp only [Nat.add_sub_cancel] at hb1 ⊢
  have hm := mul_eq d (l + 1) (by omega) (by omega)
  -- bounds on the multiplier
  have hmle : ((2 ^ (l + 1) - d) <<< 31) / d ≤ 2 ^ 31 := by
    apply Nat.div_le_of_le_mul
    rw [Nat.shiftLeft_eq]
    apply Nat.mul_le_mul_right
    have : 2 ^ (l + 1) = 2 * 2 ^ l := by ring
    omega
  generalize hmg : ((2 ^ (l + 1) - d) <<< 31) / d + 1 = m at *
  have hm31 : m ≤ 2 ^ 31 + 1 := by omega
  have hl16 : 2 ^ l < 2 ^ 16 := by omega
  have hR := recip_div (2 ^ (l + 1 + 31)) n d (by omega) (by
    calc n * d < 2 ^ 31 * 2 ^ (l + 1) := by
          apply Nat.mul_lt_mul_of_lt_of_le hn (by omega) (by positivity)
      _ = _ := by ring)
  rw [← hm] at hR
  -- t = ⌊m n / 2^31⌋
  have hmn : m * n < 2 ^ 63 := by
    calc m * n ≤ (2 ^ 31 + 1) * n := Nat.mul_le_mul_right _ hm31
      _ < 2 ^ 63 := by omega
  obtain ⟨t, ht⟩ : ∃ t, t = m * n / 2 ^ 31 := ⟨_, rfl⟩
  have htn : t ≤ n := by
    have : m * n ≤ (2 ^ 31 + 1) * n := Nat.mul_le_mul_right _ hm31
    omega
  have hfold : (m + 2 ^ 31) * n / 2 ^ (l + 1 + 31) = ((t + (n - t) / 2)) / 2 ^ l := by
    have e1 : (m + 2 ^ 31) * n / 2 ^ 31 = t + n := by
      rw [Nat.add_mul, Nat.add_mul_div_left _ _ (by norm_num), ht]
    rw [show l + 1 + 31 = 31 + (1 + l) by ring, pow_add, ← Nat.div_div_eq_div_mul, e1, pow_add,
      ← Nat.div_div_eq_div_mul]
    congr 1
    omega
  rw [← hR, hfold]
  unfold fastDivide
  simp only [logMaxNumerator, div_pow_shift]
  have c1 : ((m : Int) * (n : Int)) = ((m * n : Nat) : Int) := by push_cast; rfl
  have hmn' : ((m * n : Nat) : Int) < 2 ^ 63 := by exact_mod_cast hmn
  have c2 : i64 ((m * n : Nat) : Int) = ((m * n : Nat) : Int) :=
    i64_id _ (le_trans (by norm_num) (Int.natCast_nonneg _)) hmn'
  have c3 : ((m * n : Nat) : Int) / 2 ^ 31 = (t : Int) := by
    rw [ht]; push_cast; rfl
  have htn' : (t : Int) ≤ n := by exact_mod_cast htn
  have hn' : (n : Int) < 2 ^ 31 := by exact_mod_cast hn
  have ht0 : (0 : Int) ≤ t := Int.natCast_nonneg _
  clear hfold hR hmn' hmn hmg hm
  rw [c1, c2, c3, i32_id (t : Int) (by omega) (by omega), i32_id ((n : Int) - t) (by omega) (by omega)]
  rw [i32_id _ (by omega) (by omega)]
  have c6 : ((t : Int) + ((n : Int) - t) / 2 ^ 1) = ((t + (n - t) / 2 : Nat) : Int) := by omega
  rw [c6]
  push_cast
  rfl

/-- C08: dividing with the table entry of `d` gives the exact quotient, for every 16-bit divisor
(seen as `u16`) and every numerator below `2^31`. -/
theorem fast_divide_exact (d n : Nat) (hd : 1 ≤ d) (hd2 : d < 2 ^ 16) (hn : n < 2 ^ 31) :
    fastDivide n (reciprocal d) = ((n / d : Nat) : Int) := by
  have hw := reciprocalWord_eq d hd (by omega)
  have hlog : Nat.log2 d < 256 := by
    have := (Nat.log2_lt (by omega : d ≠ 0)).2 hd2
    omega
  have hb : bitLen d = Nat.log2 d + 1 := by simp [bitLen]; omega
  have h := fastDivide_formula d n hd hd2 hn
  rw [hb, Nat.add_sub_cancel] at h
  rw [reciprocal, hw, show ∀ x, (x * 256 + Nat.log2 d) / 256 = x by intro x; omega,
    show ∀ x, (x * 256 + Nat.log2 d) % 256 = Nat.log2 d by intro x; omega]
  exact h

/-- C08: the table entries are exactly what `compute_divisor` computes. -/
theorem table_eq_compute (d : Nat) (hd : 1 ≤ d) (hd2 : d < 2 ^ 16) :
    computeDivisor d = some (reciprocal d) := by
  have hw := reciprocalWord_eq d hd (by omega)
  have hlog : Nat.log2 d < 256 := by
    have := (Nat.log2_lt (by omega : d ≠ 0)).2 hd2
    omega
  have hb : bitLen d = Nat.log2 d + 1 := by simp [bitLen]; omega
  rw [reciprocal, hw, show ∀ x, (x * 256 + Nat.log2 d) / 256 = x by intro x; omega,
    show ∀ x, (x * 256 + Nat.log2 d) % 256 = Nat.log2 d by intro x; omega]
  simp [computeDivisor, hb, logMaxNumerator]
  omega

/-- C08, 8-bit variant: for every 8-bit divisor and every 16-bit numerator the result is the quotient
cast to `i16`. -/
theorem fast_divide8_cast (d n : Nat) (hd : 1 ≤ d) (hd2 : d < 256) (hn : n < 2 ^ 16) :
    fastDivide8 n (lookupDivisor8 d) = i16 ((n / d : Nat) : Int) := by
  have hR := recip_div (2 ^ 24) n d (by omega) (by
    calc n * d < 2 ^ 16 * 2 ^ 8 := Nat.mul_lt_mul_of_lt_of_le hn (by omega) (by norm_num)
      _ = 2 ^ 24 := by norm_num)
  rw [fastDivide8, lookupDivisor8, reciprocal8_eq d hd hd2, Nat.shiftRight_eq_div_pow,
    Nat.add_comm 1, hR]

/-- C08, 8-bit variant: it is the exact quotient for every divisor of at least 2 (and for divisor 1
when the numerator is below `2^15`).  Missing from the full claim: divisor 1 with larger numerators,
where the code's result is negative (see `fast_divide8_not_exact`). -/
theorem fast_divide8_exact_partial (d n : Nat) (hd : 1 ≤ d) (hd2 : d < 256) (hn : n < 2 ^ 16)
    (h : 2 ≤ d ∨ n < 2 ^ 15) :
    fastDivide8 n (lookupDivisor8 d) = ((n / d : Nat) : Int) := by
  rw [fast_divide8_cast d n hd hd2 hn]
  have : n / d < 2 ^ 15 := by
    rcases h with h | h
    · calc n / d ≤ n / 2 := Nat.div_le_div_left h (by norm_num)
        _ < 2 ^ 15 := by omega
    · exact lt_of_le_of_lt (Nat.div_le_self _ _) h
  exact i16_id _ (le_trans (by norm_num) (Int.natCast_nonneg _)) (by exact_mod_cast this)

/-- The full 8-bit claim is false of the code: dividing 32768 by 1 yields -32768. -/
theorem fast_divide8_not_exact :
    ¬ ∀ d n : Nat, 1 ≤ d → d < 256 → n < 2 ^ 16 →
      fastDivide8 n (lookupDivisor8 d) = ((n / d : Nat) : Int) := by
  intro h
  have := h 1 32768 (by norm_num) (by norm_num) (by norm_num)
  revert this
  decide +kernel

/-! ### Non-vacuity -/

example : fastDivide 2147483647 (reciprocal 3) = 715827882 := by decide +kernel
example : fastDivide8 65280 (lookupDivisor8 255) = 256 := by decide +kernel

end Divans.Num
