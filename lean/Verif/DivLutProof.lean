import Verif.Num

/-!
Kernel evaluation of the whole reciprocal tables against the formula.
-/
namespace Divans.Num

/-- Compares `n` digits of a packed word, from digit `i` on, with the formula for `d, d+1, ...`. -/
def checkWord (w : Nat) : Nat → Nat → Nat → Bool
  | 0, _, _ => true
  | n + 1, i, d =>
    Nat.beq ((w >>> (40 * i)) % 2 ^ 40)
      ((((2 ^ (Nat.log2 d + 1) - d) <<< 31) / d + 1) * 256 + Nat.log2 d) &&
    checkWord w n (i + 1) (d + 1)

/-- Compares whole packed words with the formula. -/
def checkWords : List Nat → Nat → Bool
  | [], _ => true
  | w :: ws, base => checkWord w 256 0 base && checkWords ws (base + 256)

theorem checkWord_spec (w n i d j : Nat) (h : checkWord w n i d = true) (hj : j < n) :
    (w >>> (40 * (i + j))) % 2 ^ 40 =
      (((2 ^ (Nat.log2 (d + j) + 1) - (d + j)) <<< 31) / (d + j) + 1) * 256 + Nat.log2 (d + j) := by
  induction n generalizing i d j with
  | zero => omega
  | succ n ih =>
    simp only [checkWord, Bool.and_eq_true] at h
    cases j with
    | zero => exact Nat.eq_of_beq_eq_true h.1
    | succ j =>
      have := ih (i + 1) (d + 1) j h.2 (by omega)
      rw [show i + (j + 1) = i + 1 + j by omega, show d + (j + 1) = d + 1 + j by omega]
      exact this

theorem checkWords_spec (ws : List Nat) (base k : Nat) (h : checkWords ws base = true)
    (hk : k < ws.length) : checkWord (ws.getD k 0) 256 0 (base + 256 * k) = true := by
  induction ws generalizing base k with
  | nil => simp at hk
  | cons w ws ih =>
    simp only [checkWords, Bool.and_eq_true] at h
    cases k with
    | zero => simpa using h.1
    | succ k =>
      have := ih (base + 256) k h.2 (by simpa using hk)
      rw [show base + 256 * (k + 1) = base + 256 + 256 * k by omega]
      simpa using this

theorem table_first : checkWord (reciprocalPacked.getD 0 0) 255 1 1 = true := by decide +kernel

theorem table_rest : checkWords (reciprocalPacked.drop 1) 256 = true := by decide +kernel

theorem table_length : reciprocalPacked.length = 256 := by decide +kernel

/-- Every entry of the 65536-entry table equals the formula. -/
theorem reciprocalWord_eq (d : Nat) (h1 : 1 ≤ d) (h2 : d < 65536) :
    reciprocalWord d = (((2 ^ (Nat.log2 d + 1) - d) <<< 31) / d + 1) * 256 + Nat.log2 d := by
  unfold reciprocalWord
  by_cases h : d < 256
  · have := checkWord_spec _ 255 1 1 (d - 1) table_first (by omega)
    rw [show d / 256 = 0 by omega, show d % 256 = 1 + (d - 1) by omega, this,
      show 1 + (d - 1) = d by omega]
  · have hl : d / 256 - 1 < (reciprocalPacked.drop 1).length := by
      rw [List.length_drop, table_length]; omega
    have hw := checkWords_spec _ 256 (d / 256 - 1) table_rest hl
    have := checkWord_spec _ 256 0 _ (d % 256) hw (by omega)
    rw [Nat.zero_add, show 256 + 256 * (d / 256 - 1) + d % 256 = d by omega] at this
    rw [← this]
    have hg : (reciprocalPacked.drop 1).getD (d / 256 - 1) 0 = reciprocalPacked.getD (d / 256) 0 := by
      simp only [List.getD_eq_getElem?_getD, List.getElem?_drop]
      rw [show 1 + (d / 256 - 1) = d / 256 by omega]
    rw [hg]

/-- Compares the 8-bit table with its formula. -/
def checkWord8 : Nat → Nat → Bool
  | 0, _ => true
  | n + 1, d => Nat.beq (reciprocal8 d) (1 + 2 ^ 24 / d) && checkWord8 n (d + 1)

theorem checkWord8_spec (n d j : Nat) (h : checkWord8 n d = true) (hj : j < n) :
    reciprocal8 (d + j) = 1 + 2 ^ 24 / (d + j) := by
  induction n generalizing d j with
  | zero => omega
  | succ n ih =>
    simp only [checkWord8, Bool.and_eq_true] at h
    cases j with
    | zero => exact Nat.eq_of_beq_eq_true h.1
    | succ j =>
      have := ih (d + 1) j h.2 (by omega)
      rw [show d + (j + 1) = d + 1 + j by omega]
      exact this

theorem table8 : checkWord8 255 1 = true := by decide +kernel

theorem reciprocal8_eq (d : Nat) (h1 : 1 ≤ d) (h2 : d < 256) :
    reciprocal8 d = 1 + 2 ^ 24 / d := by
  have := checkWord8_spec 255 1 (d - 1) table8 (by omega)
  rwa [show 1 + (d - 1) = d by omega] at this

end Divans.Num
