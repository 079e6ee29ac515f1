import Verif.Simd
import Verif.CrcProps

/-!
The checksum with the `CRC32` instruction is the checksum with the tables.
-/
namespace Divans.Simd
open Divans.Crc

theorem reflect_testBit (w x i : Nat) : (reflect w x).testBit i = (decide (i < w) && x.testBit (w - 1 - i)) := by
  induction w generalizing x i with
  | zero => simp [reflect]
  | succ w ih =>
    rw [reflect, Nat.testBit_xor, ih]
    have h0 : (if x % 2 = 1 then 2 ^ w else 0).testBit i = (decide (w = i) && x.testBit 0) := by
      rw [Nat.testBit_zero]
      split_ifs with h
      · rw [Nat.testBit_two_pow]; simp [h]
      · simp [h]
    rw [h0]
    rcases Nat.lt_trichotomy i w with h | h | h
    · rw [show w + 1 - 1 - i = (w - 1 - i) + 1 by omega, Nat.testBit_succ]
      simp [show i < w + 1 by omega, h, show w ≠ i by omega]
    · subst h; simp
    · simp [show ¬ i < w + 1 by omega, show ¬ i < w by omega, show w ≠ i by omega]

/-- `n` steps of the shift register. -/
def bits : Nat → Nat → Nat
  | 0, x => x
  | n + 1, x => bits n (bitStep x)

theorem poly_reflect (i : Nat) : poly.testBit i = (decide (i < 32) && (0x11EDC6F41 : Nat).testBit (31 - i)) := by
  by_cases h : i < 32
  · have : ∀ j : Fin 32, poly.testBit j.val = (0x11EDC6F41 : Nat).testBit (31 - j.val) := by decide
    simpa [h] using this ⟨i, h⟩
  · have : poly < 2 ^ i := lt_of_lt_of_le (by decide : poly < 2 ^ 32) (Nat.pow_le_pow_right (by omega) (by omega))
    rw [Nat.testBit_lt_two_pow this]; simp [h]

theorem polyMod_eq (n x : Nat) (hx : x < 2 ^ (n + 32)) :
    reflect 32 (polyMod n x) = bits n (reflect (n + 32) x) := by
  induction n generalizing x with
  | zero => simp [polyMod, bits]
  | succ n ih =>
    rw [polyMod, bits]
    have hP : (0x11EDC6F41 : Nat) < 2 ^ 33 := by decide
    have e : ∀ i, (if x.testBit (n + 32) then x ^^^ (0x11EDC6F41 <<< n) else x).testBit i =
        (x.testBit i ^^ (x.testBit (n + 32) && (decide (n ≤ i) && (0x11EDC6F41 : Nat).testBit (i - n)))) := by
      intro i
      split_ifs with h
      · rw [Nat.testBit_xor, Nat.testBit_shiftLeft, h]; simp
      · simp [h]
    have hlt : (if x.testBit (n + 32) then x ^^^ (0x11EDC6F41 <<< n) else x) < 2 ^ (n + 32) := by
      apply Nat.lt_pow_two_of_testBit
      intro i hi
      rw [e]
      rcases Nat.eq_or_lt_of_le hi with h | h
      · subst h
        rw [show n + 32 - n = 32 by omega, show (0x11EDC6F41 : Nat).testBit 32 = true by decide]
        simp
      · rw [Nat.testBit_lt_two_pow (lt_of_lt_of_le hx (Nat.pow_le_pow_right (by omega) (by omega))),
          Nat.testBit_lt_two_pow (lt_of_lt_of_le hP (Nat.pow_le_pow_right (by omega) (by omega : 33 ≤ i - n)))]
        simp
    rw [ih _ hlt]
    congr 1
    apply Nat.eq_of_testBit_eq
    intro i
    have hodd : (if reflect (n + 1 + 32) x % 2 = 1 then poly else 0).testBit i =
        (x.testBit (n + 32) && poly.testBit i) := by
      have h0 := reflect_testBit (n + 1 + 32) x 0
      rw [Nat.testBit_zero] at h0
      simp only [show 0 < n + 1 + 32 by omega, decide_true, Bool.true_and,
        show n + 1 + 32 - 1 - 0 = n + 32 by omega] at h0
      split_ifs with h
      · simp [h] at h0; simp [← h0]
      · simp [h] at h0; simp [← h0]
    rw [reflect_testBit, e, bitStep, Nat.testBit_xor, hodd, Nat.testBit_shiftRight, reflect_testBit, poly_reflect]
    by_cases hi : i < n + 32
    · rw [show n + 1 + 32 - 1 - (1 + i) = n + 32 - 1 - i by omega]
      simp only [hi, show 1 + i < n + 1 + 32 by omega, decide_true, Bool.true_and]
      by_cases h2 : i < 32
      · simp only [h2, show n ≤ n + 32 - 1 - i by omega, show n + 32 - 1 - i - n = 31 - i by omega, decide_true]
      · simp only [h2, show ¬ n ≤ n + 32 - 1 - i by omega, decide_false, Bool.false_and]
    · simp [hi, show ¬ 1 + i < n + 1 + 32 by omega, show ¬ i < 32 by omega]

theorem reflect_lt (w x : Nat) : reflect w x < 2 ^ w := by
  apply Nat.lt_pow_two_of_testBit
  intro i hi
  rw [reflect_testBit]; simp [show ¬ i < w by omega]

/-- The instruction feeds the bits of the source into the shift register. -/
theorem crcInstr_eq (n crc src : Nat) (hc : crc < 2 ^ 32) (hs : src < 2 ^ n) :
    crcInstr n crc src = bits n (crc ^^^ src) := by
  unfold crcInstr
  rw [polyMod_eq]
  · congr 1
    apply Nat.eq_of_testBit_eq
    intro i
    simp only [reflect_testBit, Nat.testBit_xor, Nat.testBit_shiftLeft]
    have hz : ∀ y k, y < 2 ^ k → k ≤ i → y.testBit i = false := fun y k h1 h2 =>
      Nat.testBit_lt_two_pow (lt_of_lt_of_le h1 (Nat.pow_le_pow_right (by omega) h2))
    have a1 : (decide (i < n + 32) && (decide (n + 32 - 1 - i ≥ 32) &&
        (decide (n + 32 - 1 - i - 32 < n) && src.testBit (n - 1 - (n + 32 - 1 - i - 32))))) = src.testBit i := by
      by_cases h : i < n
      · simp only [show i < n + 32 by omega, show n + 32 - 1 - i ≥ 32 by omega,
          show n + 32 - 1 - i - 32 < n by omega, show n - 1 - (n + 32 - 1 - i - 32) = i by omega,
          decide_true, Bool.true_and]
      · rw [hz src n hs (by omega)]
        rw [decide_eq_false (show ¬ n + 32 - 1 - i ≥ 32 by omega)]; simp
    have a2 : (decide (i < n + 32) && (decide (n + 32 - 1 - i ≥ n) &&
        (decide (n + 32 - 1 - i - n < 32) && crc.testBit (32 - 1 - (n + 32 - 1 - i - n))))) = crc.testBit i := by
      by_cases h : i < 32
      · simp only [show i < n + 32 by omega, show n + 32 - 1 - i ≥ n by omega,
          show n + 32 - 1 - i - n < 32 by omega, show 32 - 1 - (n + 32 - 1 - i - n) = i by omega,
          decide_true, Bool.true_and]
      · rw [hz crc 32 hc (by omega)]
        by_cases hn : i < n + 32
        · rw [decide_eq_false (show ¬ n + 32 - 1 - i ≥ n by omega)]; simp
        · simp [hn]
    rw [← a1, ← a2]
    cases decide (i < n + 32) <;> simp [Bool.xor_comm]
  · apply Nat.xor_lt_two_pow
    · rw [Nat.shiftLeft_eq, Nat.pow_add]
      exact Nat.mul_lt_mul_of_pos_right (reflect_lt _ _) (by norm_num)
    · rw [Nat.shiftLeft_eq, Nat.add_comm n, Nat.pow_add]
      exact Nat.mul_lt_mul_of_pos_right (reflect_lt _ _) (by positivity)

theorem bits_8 (x : Nat) : bits 8 x = step8 x := rfl

theorem bits_64 (x : Nat) : bits 64 x = steps 8 x := rfl

theorem word64_eq (buf : List UInt8) (h : 8 ≤ buf.length) : word64 buf = wordOf (buf.take 8) := by
  obtain ⟨b0, b1, b2, b3, b4, b5, b6, b7, l, rfl⟩ : ∃ b0 b1 b2 b3 b4 b5 b6 b7 l,
      buf = b0 :: b1 :: b2 :: b3 :: b4 :: b5 :: b6 :: b7 :: l := by
    match buf, h with
    | b0 :: b1 :: b2 :: b3 :: b4 :: b5 :: b6 :: b7 :: l, _ => exact ⟨b0, b1, b2, b3, b4, b5, b6, b7, l, rfl⟩
  have key : ∀ (k x y z : Nat), x < 2 ^ k → x ||| (y <<< k) ||| z <<< (k + 8) = x ||| ((y ||| z <<< 8) <<< k) := by
    intro k x y z _
    rw [Nat.or_assoc, Nat.shiftLeft_or_distrib, ← Nat.shiftLeft_add, Nat.add_comm 8]
  simp only [word64, byteAt, List.getD_cons_zero, List.getD_cons_succ, List.take_succ_cons, List.take_zero, wordOf,
    Nat.zero_shiftLeft, Nat.xor_zero]
  have e : ∀ (b : UInt8) (y : Nat), b.toNat ^^^ (y <<< 8) = b.toNat ||| (y <<< 8) := fun b y =>
    (or_eq_xor_of_disjoint _ _ _ b.toNat_lt).symm
  simp only [e]
  simp only [Nat.shiftLeft_or_distrib, ← Nat.shiftLeft_add, Nat.or_assoc]

theorem word64_lt (buf : List UInt8) (h : 8 ≤ buf.length) : word64 buf < 2 ^ 64 := by
  rw [word64_eq buf h]
  exact wordOf_lt _ 8 (by simp; omega)

theorem crcBlocks_eq (n c : Nat) (hc : c < 2 ^ 32) (buf : List UInt8) :
    (crcBlocks n c buf).1 < 2 ^ 32 ∧
    (crcBlocks n c buf).2.foldl absorb (crcBlocks n c buf).1 = buf.foldl absorb c := by
  induction n generalizing c buf with
  | zero => exact ⟨hc, rfl⟩
  | succ n ih =>
    rw [crcBlocks]
    split_ifs with h
    · have e : crcInstr 64 c (word64 buf) = (buf.take 8).foldl absorb c := by
        rw [crcInstr_eq 64 c _ hc (word64_lt buf h), bits_64, fold_window, word64_eq buf h]
        simp [h]
      rw [e]
      obtain ⟨h1, h2⟩ := ih _ (foldl_absorb_lt (buf.take 8) c hc) (buf.drop 8)
      exact ⟨h1, by rw [h2, ← List.foldl_append, List.take_append_drop]⟩
    · exact ⟨hc, rfl⟩

/-- C60: with the instruction or with the tables, the checksum is the same, from every state and for
every buffer. -/
theorem simd_crc_same (crc : Nat) (hc : crc < 2 ^ 32) (buf : List UInt8) :
    crcUpdate crc buf = Crc.update crc buf := by
  rw [update_eq crc hc]
  obtain ⟨h1, h2⟩ := crcBlocks_eq buf.length (crc ^^^ 0xffffffff) (Nat.xor_lt_two_pow hc (by norm_num)) buf
  unfold crcUpdate not32
  dsimp only
  rw [← h2]
  congr 1
  generalize (crcBlocks buf.length (crc ^^^ 0xffffffff) buf).2 = l at *
  generalize (crcBlocks buf.length (crc ^^^ 0xffffffff) buf).1 = c at *
  clear h2
  induction l generalizing c with
  | nil => rfl
  | cons b l ih =>
    rw [List.foldl_cons, List.foldl_cons, crcInstr_eq 8 c _ h1 b.toNat_lt, bits_8]
    exact ih _ (absorb_lt c b h1)

/-- Concretely, the check value of CRC-32C through the instruction. -/
example : crcUpdate 0 [0x31, 0x32, 0x33, 0x34, 0x35, 0x36, 0x37, 0x38, 0x39] = 0xe3069283 := by
  decide +kernel

end Divans.Simd
