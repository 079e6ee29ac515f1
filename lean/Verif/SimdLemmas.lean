import Verif.Simd
import Verif.AdaptiveProps
import Mathlib.Tactic.FinCases
import Mathlib.Data.Fintype.Basic
import Mathlib.Tactic.LinearCombination
import Mathlib.Tactic.SplitIfs

/-!
The vector code against the scalar code, one function at a time.
-/
namespace Divans.Simd
open Divans.Cdf Divans.Num

/-- The sixteen counts of a vector. -/
def SCdf.abs (c : SCdf) : Cdf := fun i => (c i).toInt

theorem i16_bmod (x : Int) : i16 x = x.bmod (2 ^ 16) := by
  unfold i16 Int.bmod
  simp only [Nat.reducePow]
  push_cast
  split_ifs <;> omega

theorem i16_ofInt (x : Int) : (BitVec.ofInt 16 x).toInt = i16 x := by
  rw [BitVec.toInt_ofInt, i16_bmod]

theorem i32_ofInt (x : Int) : (BitVec.ofInt 32 x).toInt = i32 x := by
  rw [BitVec.toInt_ofInt]; unfold i32 Int.bmod; simp only [Nat.reducePow]; push_cast; split_ifs <;> omega

theorem abs_max (c : SCdf) : Cdf.max c.abs = c.max := rfl

theorem abs_get (c : SCdf) (s : Nat) : Cdf.get c.abs s = c.get s := rfl

theorem abs_default : SCdf.default.abs = Cdf.default := by
  have : ∀ i : Fin 16, SCdf.default.abs i = Cdf.default i := by decide +kernel
  exact funext this

theorem abs_range (c : SCdf) (i : Fin 16) : -2 ^ 15 ≤ c.abs i ∧ c.abs i < 2 ^ 15 := by
  have h1 := (c i).le_toInt
  have h2 := (c i).toInt_lt
  simpa [SCdf.abs] using And.intro h1 h2

/-! ### Adaptation: equal for all counts -/

theorem oneTo16_toInt (i : Fin 16) : (oneTo16 i).toInt = i.val + 1 := by
  revert i; decide

theorem bumped (x : BitVec 16) (inc : Int) (sym : Nat) (hsym : sym < 2 ^ 15) (i : Fin 16) :
    (x + (splat inc i &&& gt oneTo16 (splat (sym : Int)) i : BitVec 16)).toInt =
      if sym ≤ i.val then i16 (x.toInt + inc) else x.toInt := by
  have hs : (splat (sym : Int) i : BitVec 16).toInt = sym := by
    rw [splat, i16_ofInt]; unfold i16; omega
  unfold gt
  rw [hs, oneTo16_toInt]
  by_cases h : sym ≤ i.val
  · rw [if_pos (by omega), if_pos h, BitVec.and_allOnes, splat, BitVec.toInt_add, i16_ofInt, i16_bmod, i16_bmod]
    simp
  · rw [if_neg (by omega), if_neg h]; simp

theorem abs_blend (c : SCdf) (sym : Nat) (hsym : sym < 2 ^ 15) (sp : Speed) :
    (c.blend sym sp).abs = Cdf.blend c.abs sym sp := by
  unfold SCdf.blend Cdf.blend SCdf.max Cdf.max
  dsimp only
  rw [bumped (c 15) sp.inc sym hsym 15]
  by_cases h : sp.lim ≤ if sym ≤ (15 : Fin 16).val then i16 ((c 15).toInt + sp.inc) else (c 15).toInt
  · rw [if_pos h, if_pos (by exact h)]
    funext i
    rw [SCdf.abs, BitVec.toInt_sub, BitVec.toInt_sshiftRight, BitVec.toInt_add, bumped (c i) sp.inc sym hsym i,
      oneTo16_toInt]
    simp only [i16_bmod]
    rfl
  · rw [if_neg h, if_neg (by exact h)]
    funext i
    exact bumped (c i) sp.inc sym hsym i

/-! ### The division in `f64`: equal to the division of integers -/

theorem bitLen_spec (a : Nat) (h : a ≠ 0) : 2 ^ (bitLen a - 1) ≤ a ∧ a < 2 ^ bitLen a := by
  unfold bitLen
  rw [if_neg h, Nat.add_sub_cancel]
  exact ⟨Nat.log2_self_le h, Nat.lt_log2_self⟩

theorem bitLen_le (a n : Nat) (h : a < 2 ^ n) : bitLen a ≤ n := by
  unfold bitLen
  split_ifs with h0
  · omega
  · have := (Nat.log2_lt h0).2 h; omega

/-- Rounding to 53 bits does not reach the next integer when the quotient has few bits. -/
theorem f64Quot_floor (a b : Nat) (ha : a ≠ 0) (hb : b ≠ 0) (hb2 : b < 2 ^ 16) (ha2 : a < 2 ^ 32) :
    (f64Quot a b).1 / 2 ^ (f64Quot a b).2 = a / b := by
  have la := bitLen_le a 32 ha2
  have lb : 1 ≤ bitLen b := by unfold bitLen; rw [if_neg hb]; omega
  unfold f64Quot
  dsimp only
  have hk : ∃ k, 17 ≤ k ∧ (if a <<< (53 + bitLen b - bitLen a) / b < 2 ^ 53 then 53 + bitLen b - bitLen a
      else 53 + bitLen b - bitLen a - 1) = k := ⟨_, by split_ifs <;> omega, rfl⟩
  obtain ⟨k, hk1, hk2⟩ := hk
  rw [hk2]
  have hp : 2 ^ 17 ≤ 2 ^ k := Nat.pow_le_pow_right (by omega) hk1
  rw [Nat.shiftLeft_eq]
  have hpb : b < 2 ^ k := by omega
  generalize 2 ^ k = p at *
  have e1 := Nat.div_add_mod a b
  have e2 := Nat.mod_lt a (Nat.pos_of_ne_zero hb)
  have e3 := Nat.div_add_mod (a * p) b
  have e4 := Nat.mod_lt (a * p) (Nat.pos_of_ne_zero hb)
  generalize a / b = n at *
  generalize a % b = s at *
  generalize a * p / b = q at *
  generalize a * p % b = r at *
  have hm : ∃ m, (if 2 * r < b ∨ 2 * r = b ∧ q % 2 = 0 then q else q + 1) = m ∧ q ≤ m ∧ m ≤ q + 1 :=
    ⟨_, rfl, by split_ifs <;> omega, by split_ifs <;> omega⟩
  obtain ⟨m, hm, m1, m2⟩ := hm
  rw [hm]
  have hp0 : 0 < p := by omega
  have lo : n * p ≤ q := by
    have : b * (n * p) < b * (q + 1) := by
      have : b * (n * p) ≤ a * p := by rw [← Nat.mul_assoc]; exact Nat.mul_le_mul_right _ (by omega)
      have : b * (q + 1) = b * q + b := by ring
      omega
    have := Nat.lt_of_mul_lt_mul_left this
    omega
  have hi : q + 1 < (n + 1) * p := by
    have : b * (q + 1) < b * ((n + 1) * p) := by
      have h1 : (a + 1) * p ≤ (b * (n + 1)) * p := Nat.mul_le_mul_right _ (by rw [Nat.mul_add]; omega)
      have h2 : b * (q + 1) = b * q + b := by ring
      have h3 : (a + 1) * p = a * p + p := by ring
      rw [← Nat.mul_assoc]
      omega
    exact Nat.lt_of_mul_lt_mul_left this
  exact Nat.div_eq_of_lt_le (by omega) (by omega)

theorem f64DivTrunc_eq (a b : Int) (hb : b ≠ 0) (hb2 : b.natAbs < 2 ^ 16) (ha2 : a.natAbs < 2 ^ 32) :
    f64DivTrunc a b = a.tdiv b := by
  unfold f64DivTrunc
  by_cases h0 : a = 0
  · simp [h0]
  · rw [if_neg h0, if_neg hb]
    dsimp only
    rw [f64Quot_floor a.natAbs b.natAbs (by omega) (by omega) hb2 ha2]
    rcases Int.natAbs_eq a with ea | ea <;> rcases Int.natAbs_eq b with eb | eb <;>
      generalize a.natAbs = x at * <;> generalize b.natAbs = y at * <;> subst ea <;> subst eb
    · rw [if_pos (by simp; omega), Int.ofNat_tdiv]
    · rw [if_neg (by simp; omega), Int.tdiv_neg, Int.ofNat_tdiv]
    · rw [if_neg (by simp; omega), Int.neg_tdiv, Int.ofNat_tdiv]
    · rw [if_pos (by simp; omega), Int.neg_tdiv_neg, Int.ofNat_tdiv]

/-! ### Slots: equal whenever the total is not zero -/

theorem shl15_toInt (x : Int) (h1 : -2 ^ 15 ≤ x) (h2 : x < 2 ^ 15) :
    ((BitVec.ofInt 32 x) <<< 15).toInt = x * 2 ^ 15 := by
  rw [BitVec.toInt_shiftLeft, BitVec.toNat_ofInt, Nat.shiftLeft_eq]
  unfold Int.bmod
  simp only [Nat.reducePow]
  push_cast
  split_ifs <;> omega

theorem cut_same (p q : Int) (hp : p.natAbs ≤ 2 ^ 30) (_hq : q.natAbs ≤ 2 ^ 30) :
    (⟨i16 (i32 (p + 1)), i16 (i32 (q - i32 (p + 1)))⟩ : Range) = ⟨i16 (i16 p + 1), i16 (i16 (q - p) - 1)⟩ := by
  have e : i32 (p + 1) = p + 1 := by unfold i32; omega
  have e2 : i16 (i32 (q - (p + 1))) = i16 (q - (p + 1)) := by unfold i32 i16; omega
  rw [e, e2]
  have h1 : i16 (p + 1) = i16 (i16 p + 1) := by unfold i16; omega
  have h2 : i16 (q - (p + 1)) = i16 (i16 (q - p) - 1) := by unfold i16; omega
  rw [h1, h2]

theorem symRange_same (c : SCdf) (h : c.max ≠ 0) (sym : Nat) :
    c.symRange sym = Cdf.symRange (divByMax c.abs) c.abs sym := by
  have hg : ∀ s, -2 ^ 15 ≤ c.get s ∧ c.get s < 2 ^ 15 := fun s => abs_range c ⟨s % 16, _⟩
  have hm := abs_range c 15
  rw [show c.abs 15 = c.max from rfl] at hm
  have hd : ∀ x : Int, -2 ^ 15 ≤ x → x < 2 ^ 15 →
      f64DivTrunc ((BitVec.ofInt 32 x) <<< 15).toInt c.max = divByMax c.abs (x <<< 15) := by
    intro x h1 h2
    rw [shl15_toInt x h1 h2, f64DivTrunc_eq _ _ h (by omega) (by omega), divByMax, shl15]
    rfl
  have hq : ∀ x : Int, -2 ^ 15 ≤ x → x < 2 ^ 15 → (divByMax c.abs (x <<< 15)).natAbs ≤ 2 ^ 30 := by
    intro x h1 h2
    rw [divByMax, shl15, Int.natAbs_tdiv]
    refine le_trans (Nat.div_le_self _ _) (by omega)
  have hP : f64DivTrunc ((BitVec.ofInt 32 (if sym ≠ 0 then c.get (sym - 1) else 0)) <<< 15).toInt c.max =
      if sym ≠ 0 then divByMax c.abs (c.get (sym - 1) <<< 15) else 0 := by
    by_cases h0 : sym ≠ 0
    · rw [if_pos h0, if_pos h0, hd _ (hg _).1 (hg _).2]
    · rw [if_neg h0, if_neg h0]; simp [f64DivTrunc]
  have hPb : (if sym ≠ 0 then divByMax c.abs (c.get (sym - 1) <<< 15) else 0).natAbs ≤ 2 ^ 30 := by
    by_cases h0 : sym ≠ 0
    · rw [if_pos h0]; exact hq _ (hg _).1 (hg _).2
    · rw [if_neg h0]; decide
  have hQb := hq _ (hg sym).1 (hg sym).2
  unfold SCdf.symRange Cdf.symRange
  dsimp only
  rw [hd _ (hg sym).1 (hg sym).2, hP]
  exact cut_same _ _ hPb hQb

/-! ### Lookup: equal for increasing counts -/

/-- The mask of a comparison that holds exactly in the lanes before `k`. -/
def firstLanes (k : Nat) : V 16 16 := fun i => if i.val < k then BitVec.allOnes 16 else 0

theorem sym_firstLanes : ∀ v : Variant, ∀ k : Fin 17, v.sym (firstLanes k.val) = k.val := by
  intro v
  cases v <;> decide +kernel

theorem sym_eq (v : Variant) (c : SCdf) (r : Int) (k : Nat) (hk : k ≤ 16) (hr : i16 r = r)
    (hlow : ∀ i : Fin 16, i.val < k → c.abs i ≤ r) (hhigh : ∀ i : Fin 16, k ≤ i.val → r < c.abs i) :
    v.sym (ge (splat r) c) = k := by
  have : ge (splat r) c = firstLanes k := by
    funext i
    unfold ge firstLanes splat
    rw [i16_ofInt, hr]
    by_cases h : i.val < k
    · have := hlow i h
      unfold SCdf.abs at this
      rw [if_pos this, if_pos h]
    · have := hhigh i (by omega)
      rw [if_neg (by unfold SCdf.abs at this; omega), if_neg h]
  rw [this]
  exact sym_firstLanes v ⟨k, by omega⟩

/-- The symbol found by the comparisons of the scalar code. -/
theorem lookup_sym_same (v : Variant) (c : SCdf) (hu : Usable c.abs) (off : Nat) (hoff : off < 2 ^ 15) :
    v.sym (ge (splat (i16 (((off : Int) * c.max) >>> 15))) c) = lookupSym c.abs off ∧ lookupSym c.abs off < 16 := by
  have hp := fun s hs => (hu.2 s hs).1
  have hM := max_pos c.abs hu
  have hM2 := hu.1
  have hrr : ∃ r : Int, ((off : Int) * c.max) >>> 15 = r ∧ 0 ≤ r ∧ r < c.max := by
    rw [abs_max] at hM
    refine ⟨_, rfl, ?_, ?_⟩
    · rw [Int.shiftRight_eq_div_pow]
      have : 0 ≤ (off : Int) * c.max := Int.mul_nonneg (by omega) (by omega)
      omega
    · rw [Int.shiftRight_eq_div_pow]
      have : (off : Int) * c.max < 2 ^ 15 * c.max := by
        apply Int.mul_lt_mul_of_pos_right <;> omega
      omega
  obtain ⟨r, hr, r0, r1⟩ := hrr
  rw [abs_max] at hM2
  have hi : i16 r = r := i16_id r (by omega) (by omega)
  have key : ∃ k, k < 16 ∧ (∀ i : Fin 16, i.val < k → c.abs i ≤ r) ∧ (∀ i : Fin 16, k ≤ i.val → r < c.abs i) := by
    have hex : ∃ k, k < 16 ∧ r < get c.abs k := ⟨15, by omega, by rw [get_max, abs_max]; exact r1⟩
    refine ⟨Nat.find hex, (Nat.find_spec hex).1, fun i hik => ?_, fun i hik => ?_⟩
    · have := Nat.find_min hex hik
      rw [get_eq] at this
      by_contra hc
      exact this ⟨i.2, by omega⟩
    · have h1 := get_mono c.abs hp (Nat.find hex) i.val hik i.2
      have h2 := (Nat.find_spec hex).2
      rw [get_eq] at h1
      omega
  obtain ⟨k, k1, k2, k3⟩ := key
  have e : lookupSym c.abs off = k := by
    unfold lookupSym
    rw [abs_max, hr, hi]
    refine firstAbove_eq c.abs r 15 0 k (by omega) (by omega) (fun j _ hj => ?_) (fun _ => ?_)
    · have := k2 ⟨j, by omega⟩ hj
      rwa [← get_eq c.abs] at this
    · have := k3 ⟨k, k1⟩ (le_refl _)
      rwa [← get_eq c.abs] at this
  rw [e, hr, hi]
  exact ⟨sym_eq v c r k (by omega) hi k2 k3, k1⟩

theorem usable_nonzero (c : SCdf) (hu : Usable c.abs) : c.max ≠ 0 := by
  have := max_pos c.abs hu
  rw [abs_max] at this
  omega

/-- Slots of the vector code and of the production type. -/
theorem range_same (c : SCdf) (hu : Usable c.abs) (sym : Nat) (hs : sym < 16) :
    c.symRange sym = (Opt.new c.abs).symRange sym := by
  rw [symRange_same c (usable_nonzero c hu), Opt.symRange,
    symRange_eq _ _ hu (exactDiv_plain _ (max_pos _ hu)) sym hs]
  exact (symRange_eq (Opt.new c.abs).divByMax c.abs hu (exactDiv_opt _ (max_pos _ hu) hu.1) sym hs).symm

theorem rangeHint_same (ad : Bool) (c : SCdf) (hu : Usable c.abs) (sym : Nat) (hs : sym < 16) :
    c.symRangeHint ad sym = (Opt.new c.abs).symRange sym := by
  cases ad
  · exact range_same c hu sym hs
  · rfl

theorem lookup_same (v : Variant) (ad : Bool) (c : SCdf) (hu : Usable c.abs) (off : Nat) (hoff : off < 2 ^ 15) :
    c.lookup v ad off = (Opt.new c.abs).lookup off := by
  obtain ⟨h1, h2⟩ := lookup_sym_same v c hu off hoff
  unfold SCdf.lookup Opt.lookup Cdf.lookup
  dsimp only
  rw [h1]
  exact Prod.ext rfl (rangeHint_same ad c hu _ h2)

/-! ### Mixing: equal for counts that are not negative -/

theorem widen_lane (v : V 16 16) (i : Fin 16) :
    (if i.val < 8 then (widen v).1 ⟨i.val % 8, by omega⟩ else (widen v).2 ⟨i.val % 8, by omega⟩) =
      (v i).setWidth 32 := by
  have h : ∀ x : BitVec 16, (0#16 ++ x : BitVec 32) = x.setWidth 32 := by
    intro x
    apply BitVec.eq_of_toNat_eq
    rw [BitVec.toNat_append, BitVec.toNat_setWidth]
    have := x.isLt
    simp
    omega
  fin_cases i <;> simp [widen, pairsOf16, shuffle, splat] <;> exact h _

theorem narrow_lane (a b : V 8 32) (i : Fin 16) :
    narrow a b i = (if i.val < 8 then a ⟨i.val % 8, by omega⟩ else b ⟨i.val % 8, by omega⟩).setWidth 16 := by
  have h : ∀ x : BitVec 32, x.extractLsb' 0 16 = x.setWidth 16 := by
    intro x
    apply BitVec.eq_of_toNat_eq
    simp [BitVec.extractLsb'_toNat]
  fin_cases i <;> simp [narrow, halvesOf32, shuffle] <;> exact h _

/-- One lane of `average`. -/
def mixLane (ourMax otherMax mixRate : Int) (shift : Nat) (x y : BitVec 32) : BitVec 32 :=
  let rs := (x * BitVec.ofInt 32 otherMax).sshiftRight shift
  let ro := (y * BitVec.ofInt 32 ourMax).sshiftRight shift
  (rs * BitVec.ofInt 32 mixRate + ro * BitVec.ofInt 32 (2 ^ 15 - mixRate) + 1).sshiftRight 15

theorem average_lane (a b : SCdf) (w : Int) (i : Fin 16) :
    a.average b w i = (mixLane a.max b.max w (17 - min (clz32 (a.max * b.max)) 17)
      ((a i).setWidth 32) ((b i).setWidth 32)).setWidth 16 := by
  unfold SCdf.average
  rw [narrow_lane, ← widen_lane a i, ← widen_lane b i]
  by_cases h : i.val < 8
  · simp only [if_pos h]; rfl
  · simp only [if_neg h]; rfl

theorem setWidth_toInt (x : BitVec 16) (h : 0 ≤ x.toInt) : (x.setWidth 32).toInt = x.toInt := by
  have h1 := x.isLt
  have h2 := BitVec.toInt_eq_toNat_cond x
  have h3 := BitVec.toInt_eq_toNat_cond (x.setWidth 32)
  rw [BitVec.toNat_setWidth] at h3
  rw [h3]
  split_ifs at h2 h3 ⊢ <;> omega

theorem cut16_toInt (x : BitVec 32) : (x.setWidth 16).toInt = i16 x.toInt := by
  have h1 := x.isLt
  have h2 := BitVec.toInt_eq_toNat_cond x
  have h3 := BitVec.toInt_eq_toNat_cond (x.setWidth 16)
  rw [BitVec.toNat_setWidth] at h3
  rw [h3, h2]
  unfold i16
  split_ifs <;> omega

theorem i32_bmod (x : Int) : x.bmod (2 ^ 32) = i32 x := by rw [← i32_ofInt, BitVec.toInt_ofInt]

theorem i32_self (x : Int) (h1 : -2 ^ 31 ≤ x) (h2 : x < 2 ^ 31) : i32 x = x := by unfold i32; omega

theorem mixLane_toInt (M N w : Int) (sh : Nat) (x y : BitVec 32) (hM : 0 ≤ M ∧ M ≤ 2 ^ 14) (hN : 0 ≤ N ∧ N ≤ 2 ^ 14)
    (hw : 0 ≤ w ∧ w ≤ 2 ^ 15) (hx : 0 ≤ x.toInt ∧ x.toInt ≤ M) (hy : 0 ≤ y.toInt ∧ y.toInt ≤ N)
    (hs : (M * N) >>> sh < 2 ^ 15) :
    (mixLane M N w sh x y).toInt =
      (((x.toInt * N) >>> sh) * w + ((y.toInt * M) >>> sh) * (2 ^ 15 - w) + 1) >>> 15 := by
  have p1 : x.toInt * N ≤ M * N := Int.mul_le_mul_of_nonneg_right hx.2 hN.1
  have p2 : y.toInt * M ≤ M * N := by
    rw [Int.mul_comm M N]; exact Int.mul_le_mul_of_nonneg_right hy.2 hM.1
  have p0 : M * N ≤ 2 ^ 14 * 2 ^ 14 := Int.mul_le_mul hM.2 hN.2 hN.1 (by omega)
  have q1 : 0 ≤ x.toInt * N := Int.mul_nonneg hx.1 hN.1
  have q2 : 0 ≤ y.toInt * M := Int.mul_nonneg hy.1 hM.1
  have t1 : (x.toInt * N) >>> sh ≤ (M * N) >>> sh := by
    rw [Int.shiftRight_eq_div_pow, Int.shiftRight_eq_div_pow]; exact Int.ediv_le_ediv (by positivity) p1
  have t2 : (y.toInt * M) >>> sh ≤ (M * N) >>> sh := by
    rw [Int.shiftRight_eq_div_pow, Int.shiftRight_eq_div_pow]; exact Int.ediv_le_ediv (by positivity) p2
  have t3 : 0 ≤ (x.toInt * N) >>> sh := by
    rw [Int.shiftRight_eq_div_pow]; exact Int.ediv_nonneg q1 (by positivity)
  have t4 : 0 ≤ (y.toInt * M) >>> sh := by
    rw [Int.shiftRight_eq_div_pow]; exact Int.ediv_nonneg q2 (by positivity)
  unfold mixLane
  dsimp only
  simp only [BitVec.toInt_sshiftRight, BitVec.toInt_add, BitVec.toInt_mul, i32_ofInt, i32_bmod]
  have o1 : (1 : BitVec 32).toInt = 1 := by decide
  rw [o1, i32_self N (by omega) (by omega), i32_self M (by omega) (by omega), i32_self w (by omega) (by omega),
    i32_self (2 ^ 15 - w) (by omega) (by omega), i32_self (x.toInt * N) (by omega) (by omega),
    i32_self (y.toInt * M) (by omega) (by omega)]
  generalize (x.toInt * N) >>> sh = r at *
  generalize (y.toInt * M) >>> sh = r' at *
  have u1 : r * w ≤ 32767 * w := Int.mul_le_mul_of_nonneg_right (by omega) hw.1
  have u2 : r' * (2 ^ 15 - w) ≤ 32767 * (2 ^ 15 - w) := Int.mul_le_mul_of_nonneg_right (by omega) (by omega)
  have u3 : 0 ≤ r * w := Int.mul_nonneg t3 hw.1
  have u4 : 0 ≤ r' * (2 ^ 15 - w) := Int.mul_nonneg t4 (by omega)
  rw [i32_self (r * w) (by omega) (by omega), i32_self (r' * (2 ^ 15 - w)) (by omega) (by omega),
    i32_self (r * w + r' * (2 ^ 15 - w)) (by omega) (by omega), i32_self _ (by omega) (by omega)]

theorem abs_average (a b : SCdf) (ha : Healthy a.abs) (hb : Healthy b.abs) (w : Int) (hw : 0 ≤ w) (hw2 : w ≤ 2 ^ 15) :
    (a.average b w).abs = Cdf.average a.abs b.abs w := by
  funext i
  have hM := ha.bounds 15
  have hN := hb.bounds 15
  have hx := ha.bounds i
  have hy := hb.bounds i
  have hxm : a.abs i ≤ Cdf.max a.abs := by
    have := get_mono a.abs (fun s hs => by have := ha.2 s hs; omega) i.val 15 (by omega) (by omega)
    rwa [get_eq, get_max] at this
  have hym : b.abs i ≤ Cdf.max b.abs := by
    have := get_mono b.abs (fun s hs => by have := hb.2 s hs; omega) i.val 15 (by omega) (by omega)
    rwa [get_eq, get_max] at this
  rw [SCdf.abs, average_lane, cut16_toInt]
  unfold Cdf.average
  dsimp only
  rw [abs_max, abs_max] at *
  have ex : ((a i).setWidth 32).toInt = a.abs i := setWidth_toInt _ (by unfold SCdf.abs at hx; omega)
  have ey : ((b i).setWidth 32).toInt = b.abs i := setWidth_toInt _ (by unfold SCdf.abs at hy; omega)
  have eM : a.abs 15 = a.max := rfl
  have eN : b.abs 15 = b.max := rfl
  rw [eM] at hM
  rw [eN] at hN
  have hs : (a.max * b.max) >>> (17 - min (clz32 (a.max * b.max)) 17) < 2 ^ 15 := by
    have h1 : 1 * 1 ≤ a.max * b.max := Int.mul_le_mul (by omega) (by omega) (by omega) (by omega)
    have h2 : a.max * b.max ≤ 2 ^ 14 * 2 ^ 14 := Int.mul_le_mul (by omega) (by omega) (by omega) (by omega)
    have := (clz32_shift (a.max * b.max) (by omega) (by omega)).1
    rw [Int.shiftRight_eq_div_pow]
    exact_mod_cast this
  rw [mixLane_toInt a.max b.max w _ _ _ (by omega) (by omega) ⟨hw, hw2⟩ (by rw [ex]; omega) (by rw [ey]; omega) hs, ex, ey]

end Divans.Simd
