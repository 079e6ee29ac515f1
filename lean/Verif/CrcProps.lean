import Verif.Crc
import Mathlib.Tactic.Ring
import Mathlib.Tactic.NormNum
import Mathlib.Data.Nat.Bitwise

/-!
Property theorems for the checksum (C21, C22).
-/
namespace Divans.Crc

/-! ### Specification: CRC-32C, one bit at a time -/

/-- The reflected Castagnoli polynomial. -/
def poly : Nat := 0x82f63b78

/-- One step of the shift register. -/
def bitStep (x : Nat) : Nat := (x >>> 1) ^^^ (if x % 2 = 1 then poly else 0)

/-- Eight steps. -/
def step8 (x : Nat) : Nat := bitStep (bitStep (bitStep (bitStep (bitStep (bitStep (bitStep (bitStep x)))))))

/-- Absorbs one byte. -/
def absorb (crc : Nat) (b : UInt8) : Nat := step8 (crc ^^^ b.toNat)

/-- CRC-32C of a message: all-ones start value, complemented result. -/
def crc32c (msg : List UInt8) : Nat := msg.foldl absorb 0xffffffff ^^^ 0xffffffff

/-- The published check value of CRC-32C ("123456789"). -/
example : crc32c [0x31, 0x32, 0x33, 0x34, 0x35, 0x36, 0x37, 0x38, 0x39] = 0xe3069283 := by
  decide +kernel

/-! ### Linearity -/

theorem xor_mod_two (x y : Nat) : (x ^^^ y) % 2 = (x % 2 + y % 2) % 2 := by
  have h := Nat.testBit_xor x y 0
  simp only [Nat.testBit_zero] at h
  rcases Nat.mod_two_eq_zero_or_one x with hx | hx <;> rcases Nat.mod_two_eq_zero_or_one y with hy | hy <;>
    rcases Nat.mod_two_eq_zero_or_one (x ^^^ y) with hz | hz <;> simp_all

theorem bitStep_xor (x y : Nat) : bitStep (x ^^^ y) = bitStep x ^^^ bitStep y := by
  unfold bitStep
  rw [Nat.shiftRight_xor_distrib, xor_mod_two]
  rcases Nat.mod_two_eq_zero_or_one x with hx | hx <;> rcases Nat.mod_two_eq_zero_or_one y with hy | hy <;>
    simp [hx, hy]
  · rw [Nat.xor_assoc]
  · rw [Nat.xor_right_comm]
  · rw [Nat.xor_assoc, ← Nat.xor_assoc poly, Nat.xor_comm poly, Nat.xor_assoc, Nat.xor_self, Nat.xor_zero]

theorem step8_xor (x y : Nat) : step8 (x ^^^ y) = step8 x ^^^ step8 y := by
  simp only [step8, bitStep_xor]

theorem bitStep_even (x : Nat) : bitStep (x <<< 1) = x := by
  unfold bitStep
  have : (x <<< 1) % 2 = 0 := by rw [Nat.shiftLeft_eq]; omega
  rw [if_neg (by omega), Nat.xor_zero]
  rw [Nat.shiftLeft_eq, Nat.shiftRight_eq_div_pow]; omega

theorem step8_shl (x : Nat) : step8 (x <<< 8) = x := by
  have h : x <<< 8 = (((((((x <<< 1) <<< 1) <<< 1) <<< 1) <<< 1) <<< 1) <<< 1) <<< 1 := by
    simp only [Nat.shiftLeft_eq]; ring
  rw [h, step8]
  simp only [bitStep_even]

/-- `n` bytes of zeros. -/
def steps : Nat → Nat → Nat
  | 0, x => x
  | n + 1, x => steps n (step8 x)

theorem steps_xor (n x y : Nat) : steps n (x ^^^ y) = steps n x ^^^ steps n y := by
  induction n generalizing x y with
  | zero => rfl
  | succ n ih => rw [steps, step8_xor, ih]; rfl

theorem steps_succ' (n x : Nat) : steps (n + 1) x = step8 (steps n x) := by
  induction n generalizing x with
  | zero => rfl
  | succ n ih => rw [steps, ih]; rfl

theorem steps_shl (n x : Nat) : steps (n + 1) (x <<< 8) = steps n x := by
  rw [steps, step8_shl]

theorem step8_zero : step8 0 = 0 := by decide

theorem steps_zero (n : Nat) : steps n 0 = 0 := by
  induction n with
  | zero => rfl
  | succ n ih => rw [steps, step8_zero, ih]

/-! ### Range -/

theorem bitStep_lt (x : Nat) (h : x < 2 ^ 32) : bitStep x < 2 ^ 32 := by
  unfold bitStep
  apply Nat.xor_lt_two_pow
  · rw [Nat.shiftRight_eq_div_pow]; omega
  · split_ifs <;> simp [poly]

theorem step8_lt (x : Nat) (h : x < 2 ^ 32) : step8 x < 2 ^ 32 := by
  unfold step8
  iterate 8 apply bitStep_lt
  exact h

theorem absorb_lt (c : Nat) (b : UInt8) (h : c < 2 ^ 32) : absorb c b < 2 ^ 32 := by
  apply step8_lt
  apply Nat.xor_lt_two_pow h
  have := b.toNat_lt; omega

theorem foldl_absorb_lt (m : List UInt8) (c : Nat) (h : c < 2 ^ 32) : m.foldl absorb c < 2 ^ 32 := by
  induction m generalizing c with
  | nil => exact h
  | cons b m ih => exact ih _ (absorb_lt c b h)

/-! ### The table, checked whole by the kernel -/

/-- Row `k` entries `i, i+1, ..`: each equals eight steps on the previous row's entry. -/
def checkRow (prev cur : Nat) : Nat → Nat → Bool
  | 0, _ => true
  | n + 1, i => Nat.beq ((cur >>> (32 * i)) % 2 ^ 32) (step8 ((prev >>> (32 * i)) % 2 ^ 32)) &&
      checkRow prev cur n (i + 1)

/-- The identity row, from entry `i` on. -/
def checkFirst (cur : Nat) : Nat → Nat → Bool
  | 0, _ => true
  | n + 1, i => Nat.beq ((cur >>> (32 * i)) % 2 ^ 32) (step8 i) && checkFirst cur n (i + 1)

/-- All rows. -/
def checkRows : List Nat → Bool
  | a :: b :: r => checkRow a b 256 0 && checkRows (b :: r)
  | _ => true

theorem table_check_first : checkFirst (table16Packed.getD 0 0) 256 0 = true := by decide +kernel
theorem table_check_rows : checkRows table16Packed = true := by decide +kernel

theorem checkFirst_spec (cur n i j : Nat) (h : checkFirst cur n i = true) (hj : j < n) :
    (cur >>> (32 * (i + j))) % 2 ^ 32 = step8 (i + j) := by
  induction n generalizing i j with
  | zero => omega
  | succ n ih =>
    simp only [checkFirst, Bool.and_eq_true] at h
    cases j with
    | zero => exact Nat.eq_of_beq_eq_true h.1
    | succ j =>
      rw [show i + (j + 1) = i + 1 + j by omega]
      exact ih (i + 1) j h.2 (by omega)

theorem checkRow_spec (prev cur n i j : Nat) (h : checkRow prev cur n i = true) (hj : j < n) :
    (cur >>> (32 * (i + j))) % 2 ^ 32 = step8 ((prev >>> (32 * (i + j))) % 2 ^ 32) := by
  induction n generalizing i j with
  | zero => omega
  | succ n ih =>
    simp only [checkRow, Bool.and_eq_true] at h
    cases j with
    | zero => exact Nat.eq_of_beq_eq_true h.1
    | succ j =>
      rw [show i + (j + 1) = i + 1 + j by omega]
      exact ih (i + 1) j h.2 (by omega)

theorem checkRows_spec (l : List Nat) (h : checkRows l = true) (k : Nat) (hk : k + 1 < l.length) :
    checkRow (l.getD k 0) (l.getD (k + 1) 0) 256 0 = true := by
  induction l generalizing k with
  | nil => simp at hk
  | cons a l ih =>
    cases l with
    | nil => simp at hk
    | cons b r =>
      simp only [checkRows, Bool.and_eq_true] at h
      cases k with
      | zero => simpa using h.1
      | succ k => simpa using ih h.2 k (by simpa using hk)

/-- Every entry of the sixteen tables is the byte followed by `k` zero bytes. -/
theorem table_eq (k i : Nat) (hk : k < 16) (hi : i < 256) : table k i = steps (k + 1) i := by
  induction k with
  | zero =>
    have := checkFirst_spec _ 256 0 i table_check_first hi
    rw [Nat.zero_add] at this
    exact this
  | succ k ih =>
    have hl : table16Packed.length = 16 := by decide +kernel
    have h1 := checkRow_spec _ _ 256 0 i (checkRows_spec _ table_check_rows k (by omega)) hi
    rw [Nat.zero_add] at h1
    have h2 := ih (by omega)
    unfold table at h2 ⊢
    rw [h1, h2, ← steps_succ']

/-! ### The implementation -/

theorem split_low (x : Nat) : x = (x % 256) ^^^ ((x >>> 8) <<< 8) := by
  apply Nat.eq_of_testBit_eq
  intro i
  rw [Nat.testBit_xor, show 256 = 2 ^ 8 by norm_num, Nat.testBit_mod_two_pow, Nat.testBit_shiftLeft,
    Nat.testBit_shiftRight]
  by_cases h : i < 8
  · simp [h, show ¬ 8 ≤ i by omega]
  · simp [h, show 8 ≤ i by omega]

theorem step8_split (x : Nat) : step8 x = step8 (x % 256) ^^^ (x >>> 8) := by
  conv_lhs => rw [split_low x]
  rw [step8_xor, step8_shl]

theorem tailStep_eq (c : Nat) (b : UInt8) : tailStep c b = absorb c b := by
  have hb := b.toNat_lt
  unfold tailStep absorb
  have h1 : (c ^^^ b.toNat) % 256 = (c % 256) ^^^ b.toNat := by
    have : (c ^^^ b.toNat) % 2 ^ 8 = (c % 2 ^ 8) ^^^ (b.toNat % 2 ^ 8) := Nat.xor_mod_two_pow
    rwa [Nat.mod_eq_of_lt (show b.toNat < 2 ^ 8 by omega)] at this
  have h2 : (c ^^^ b.toNat) >>> 8 = c >>> 8 := by
    rw [Nat.shiftRight_xor_distrib]
    rw [show b.toNat >>> 8 = 0 by rw [Nat.shiftRight_eq_div_pow]; omega, Nat.xor_zero]
  rw [step8_split, h1, h2, table_eq 0 _ (by omega)]
  · rfl
  · have : (c % 256) ^^^ b.toNat < 2 ^ 8 := Nat.xor_lt_two_pow (by omega) (by omega)
    omega

theorem absorb_fold (l : List UInt8) (c : Nat) :
    l.foldl absorb c = steps l.length c ^^^ l.foldl absorb 0 := by
  induction l generalizing c with
  | nil => simp [steps]
  | cons b l ih =>
    rw [List.foldl_cons, List.foldl_cons, ih, ih (absorb 0 b)]
    simp only [absorb, List.length_cons, steps, step8_xor, steps_xor, Nat.zero_xor]
    rw [Nat.xor_assoc]

theorem or_eq_xor_of_disjoint (x y k : Nat) (hx : x < 2 ^ k) : x ||| (y <<< k) = x ^^^ (y <<< k) := by
  apply Nat.eq_of_testBit_eq
  intro i
  rw [Nat.testBit_or, Nat.testBit_xor, Nat.testBit_shiftLeft]
  by_cases h : k ≤ i
  · rw [Nat.testBit_lt_two_pow (lt_of_lt_of_le hx (Nat.pow_le_pow_right (by omega) h))]; simp
  · simp [h]

theorem word_eq (b0 b1 b2 b3 : Nat) (h0 : b0 < 256) (h1 : b1 < 256) (h2 : b2 < 256) :
    b0 ||| (b1 <<< 8) ||| (b2 <<< 16) ||| (b3 <<< 24) =
      b0 ^^^ (b1 <<< 8) ^^^ (b2 <<< 16) ^^^ (b3 <<< 24) := by
  have e1 := or_eq_xor_of_disjoint b0 b1 8 (by omega)
  have l1 : b0 ^^^ b1 <<< 8 < 2 ^ 16 := by
    apply Nat.xor_lt_two_pow (by omega); rw [Nat.shiftLeft_eq]; omega
  have e2 := or_eq_xor_of_disjoint (b0 ^^^ b1 <<< 8) b2 16 l1
  have l2 : b0 ^^^ b1 <<< 8 ^^^ b2 <<< 16 < 2 ^ 24 := by
    apply Nat.xor_lt_two_pow
    · exact lt_of_lt_of_le l1 (by norm_num)
    · rw [Nat.shiftLeft_eq]; omega
  rw [e1, e2, or_eq_xor_of_disjoint _ b3 24 l2]

/-- A 32-bit state followed by `n + 4` zero bytes, by its four bytes. -/
theorem steps_bytes (n c : Nat) (hc : c < 2 ^ 32) :
    steps (n + 4) c = steps (n + 4) (c % 256) ^^^ steps (n + 3) ((c >>> 8) % 256) ^^^
      steps (n + 2) ((c >>> 16) % 256) ^^^ steps (n + 1) ((c >>> 24) % 256) := by
  have s1 : ∀ m x, steps (m + 1) x = steps (m + 1) (x % 256) ^^^ steps m (x >>> 8) := by
    intro m x
    conv_lhs => rw [split_low x]
    rw [steps_xor, steps_shl]
  have e : ∀ x k, (x >>> k) >>> 8 = x >>> (k + 8) := fun x k => by rw [Nat.shiftRight_add]
  rw [s1 (n + 3) c, s1 (n + 2) (c >>> 8), s1 (n + 1) ((c >>> 8) >>> 8), s1 n (((c >>> 8) >>> 8) >>> 8)]
  simp only [e]
  have hz : c >>> (8 + 8 + 8 + 8) = 0 := by rw [Nat.shiftRight_eq_div_pow]; omega
  rw [hz, steps_zero, Nat.xor_zero]
  simp only [Nat.xor_assoc]

theorem absorb0 (b : UInt8) : absorb 0 b = steps 1 b.toNat := by simp [absorb, steps]

theorem block_eq (c : Nat) (hc : c < 2 ^ 32) (buf : List UInt8) (h : 16 ≤ buf.length) :
    block c buf = (buf.take 16).foldl absorb c := by
  obtain ⟨b0, b1, b2, b3, b4, b5, b6, b7, b8, b9, b10, b11, b12, b13, b14, b15, rest, rfl⟩ :
      ∃ b0 b1 b2 b3 b4 b5 b6 b7 b8 b9 b10 b11 b12 b13 b14 b15 rest,
        buf = b0 :: b1 :: b2 :: b3 :: b4 :: b5 :: b6 :: b7 :: b8 :: b9 :: b10 :: b11 :: b12 :: b13 ::
          b14 :: b15 :: rest := by
    match buf, h with
    | b0 :: b1 :: b2 :: b3 :: b4 :: b5 :: b6 :: b7 :: b8 :: b9 :: b10 :: b11 :: b12 :: b13 ::
          b14 :: b15 :: rest, _ => exact ⟨_, _, _, _, _, _, _, _, _, _, _, _, _, _, _, _, _, rfl⟩
  have hlt : ∀ b : UInt8, b.toNat < 256 := fun b => b.toNat_lt
  have hw : b0.toNat ^^^ (b1.toNat <<< 8) ^^^ (b2.toNat <<< 16) ^^^ (b3.toNat <<< 24) < 2 ^ 32 := by
    have := hlt b0; have := hlt b1; have := hlt b2; have := hlt b3
    refine Nat.xor_lt_two_pow (Nat.xor_lt_two_pow (Nat.xor_lt_two_pow ?_ ?_) ?_) ?_ <;>
      first | omega | (rw [Nat.shiftLeft_eq]; omega)
  -- right-hand side
  have hR : (List.take 16 (b0 :: b1 :: b2 :: b3 :: b4 :: b5 :: b6 :: b7 :: b8 :: b9 :: b10 :: b11 ::
      b12 :: b13 :: b14 :: b15 :: rest)).foldl absorb c =
      steps 16 (c ^^^ (b0.toNat ^^^ (b1.toNat <<< 8) ^^^ (b2.toNat <<< 16) ^^^ (b3.toNat <<< 24))) ^^^
      (steps 12 b4.toNat ^^^ steps 11 b5.toNat ^^^ steps 10 b6.toNat ^^^ steps 9 b7.toNat ^^^
       steps 8 b8.toNat ^^^ steps 7 b9.toNat ^^^ steps 6 b10.toNat ^^^ steps 5 b11.toNat ^^^
       steps 4 b12.toNat ^^^ steps 3 b13.toNat ^^^ steps 2 b14.toNat ^^^ steps 1 b15.toNat) := by
    have sh : ∀ m x k, steps (m + 1) (x <<< (k + 8)) = steps m (x <<< k) := by
      intro m x k
      rw [Nat.shiftLeft_add, steps_shl]
    have h8 : ∀ x : Nat, steps 16 (x <<< 8) = steps 15 x := fun x => steps_shl 15 x
    have h16 : ∀ x : Nat, steps 16 (x <<< 16) = steps 14 x := fun x => by
      rw [sh 15 x 8, steps_shl]
    have h24 : ∀ x : Nat, steps 16 (x <<< 24) = steps 13 x := fun x => by
      rw [sh 15 x 16, sh 14 x 8, steps_shl]
    simp only [steps_xor, h8, h16, h24]
    simp only [List.take_succ_cons, List.take_zero, List.foldl_cons, List.foldl_nil]
    have st : ∀ x, step8 x = steps 1 x := fun _ => rfl
    have ss : ∀ n x, steps 1 (steps n x) = steps (n + 1) x := fun n x =>
      (steps_succ' n x).symm
    simp only [absorb, st, steps_xor, ss]
    simp only [Nat.xor_assoc]
  rw [hR]
  unfold block byteAt
  simp only [List.getD_cons_zero, List.getD_cons_succ]
  rw [word_eq _ _ _ _ (hlt b0) (hlt b1) (hlt b2)]
  have hcw := Nat.xor_lt_two_pow hc hw
  generalize c ^^^ (b0.toNat ^^^ (b1.toNat <<< 8) ^^^ (b2.toNat <<< 16) ^^^ (b3.toNat <<< 24)) = w at *
  rw [steps_bytes 12 w hcw]
  have hm : ∀ x, x % 256 < 256 := fun x => Nat.mod_lt _ (by norm_num)
  rw [table_eq 0 _ (by omega) (hlt b15), table_eq 1 _ (by omega) (hlt b14),
    table_eq 2 _ (by omega) (hlt b13), table_eq 3 _ (by omega) (hlt b12),
    table_eq 4 _ (by omega) (hlt b11), table_eq 5 _ (by omega) (hlt b10),
    table_eq 6 _ (by omega) (hlt b9), table_eq 7 _ (by omega) (hlt b8),
    table_eq 8 _ (by omega) (hlt b7), table_eq 9 _ (by omega) (hlt b6),
    table_eq 10 _ (by omega) (hlt b5), table_eq 11 _ (by omega) (hlt b4),
    table_eq 12 _ (by omega) (hm _), table_eq 13 _ (by omega) (hm _),
    table_eq 14 _ (by omega) (hm _), table_eq 15 _ (by omega) (hm _)]
  simp only [Nat.reduceAdd]
  ac_rfl

theorem blocks_eq (n : Nat) (c : Nat) (hc : c < 2 ^ 32) (buf : List UInt8) :
    (blocks n c buf).2.foldl absorb (blocks n c buf).1 = buf.foldl absorb c := by
  induction n generalizing c buf with
  | zero => rfl
  | succ n ih =>
    rw [blocks]
    split_ifs with h
    · rw [block_eq c hc buf h, ih _ (foldl_absorb_lt _ _ hc), ← List.foldl_append,
        List.take_append_drop]
    · rfl

theorem update_eq (c : Nat) (hc : c < 2 ^ 32) (buf : List UInt8) :
    update c buf = buf.foldl absorb (c ^^^ 0xffffffff) ^^^ 0xffffffff := by
  have h : ∀ (l : List UInt8) (x : Nat), l.foldl tailStep x = l.foldl absorb x := by
    intro l
    induction l with
    | nil => intro x; rfl
    | cons b l ih => intro x; rw [List.foldl_cons, List.foldl_cons, tailStep_eq, ih]
  unfold update not32
  dsimp only
  rw [h, blocks_eq _ _ (Nat.xor_lt_two_pow hc (by norm_num))]

/-- C21: the checksum of a buffer is its CRC-32C. -/
theorem crc_correct (msg : List UInt8) : update init msg = crc32c msg := by
  rw [update_eq _ (by norm_num [init])]; simp [init, crc32c]

/-- C21: hashing a message in any pieces gives the CRC-32C of the whole message. -/
theorem crc_incremental (pieces : List (List UInt8)) :
    pieces.foldl update init = crc32c pieces.flatten := by
  have key : ∀ (ps : List (List UInt8)) (c : Nat), c < 2 ^ 32 →
      ps.foldl update c = ps.flatten.foldl absorb (c ^^^ 0xffffffff) ^^^ 0xffffffff := by
    intro ps
    induction ps with
    | nil => intro c _; simp
    | cons p ps ih =>
      intro c hc
      have hlt : update c p < 2 ^ 32 := by
        rw [update_eq c hc]
        exact Nat.xor_lt_two_pow (foldl_absorb_lt _ _ (Nat.xor_lt_two_pow hc (by norm_num)))
          (by norm_num)
      rw [List.foldl_cons, ih _ hlt, update_eq c hc]
      simp [List.foldl_append]
  rw [key pieces init (by norm_num [init])]
  simp [init, crc32c]

/-- A message of 21 bytes in three pieces (one empty, one longer than a block). -/
example : [[1, 2, 3], [], [4, 5, 6, 7, 8, 9, 10, 11, 12, 13, 14, 15, 16, 17, 18, 19, 20, 21]].foldl
    update init = 830628829 := by decide +kernel

/-! ### Detection (C22) -/

theorem bitStep_inj (x y : Nat) (hx : x < 2 ^ 32) (hy : y < 2 ^ 32) (h : bitStep x = bitStep y) :
    x = y := by
  have ht : ∀ z, z < 2 ^ 32 → (bitStep z).testBit 31 = decide (z % 2 = 1) := by
    intro z hz
    unfold bitStep
    rw [Nat.testBit_xor, Nat.testBit_shiftRight, Nat.testBit_lt_two_pow hz]
    by_cases hz1 : z % 2 = 1
    · simp [hz1, show poly.testBit 31 = true by decide]
    · simp [hz1]
  have hpar : x % 2 = y % 2 := by
    have h1 := ht x hx
    rw [h, ht y hy, decide_eq_decide] at h1
    omega
  unfold bitStep at h
  rw [hpar] at h
  have h2 : x >>> 1 = y >>> 1 := by
    have := congrArg (· ^^^ (if y % 2 = 1 then poly else 0)) h
    simpa [Nat.xor_assoc] using this
  rw [Nat.shiftRight_eq_div_pow, Nat.shiftRight_eq_div_pow] at h2
  omega

theorem step8_inj (x y : Nat) (hx : x < 2 ^ 32) (hy : y < 2 ^ 32) (h : step8 x = step8 y) : x = y := by
  unfold step8 at h
  have l := fun z (hz : z < 2 ^ 32) => bitStep_lt z hz
  have a1 := l x hx; have b1 := l y hy
  have a2 := l _ a1; have b2 := l _ b1
  have a3 := l _ a2; have b3 := l _ b2
  have a4 := l _ a3; have b4 := l _ b3
  have a5 := l _ a4; have b5 := l _ b4
  have a6 := l _ a5; have b6 := l _ b5
  have a7 := l _ a6; have b7 := l _ b6
  exact bitStep_inj _ _ hx hy (bitStep_inj _ _ a1 b1 (bitStep_inj _ _ a2 b2 (bitStep_inj _ _ a3 b3
    (bitStep_inj _ _ a4 b4 (bitStep_inj _ _ a5 b5 (bitStep_inj _ _ a6 b6 (bitStep_inj _ _ a7 b7 h)))))))

theorem xor_cancel (a b c : Nat) (h : a ^^^ c = b ^^^ c) : a = b := by
  have := congrArg (· ^^^ c) h
  simpa [Nat.xor_assoc] using this

theorem absorb_inj (x y : Nat) (b : UInt8) (hx : x < 2 ^ 32) (hy : y < 2 ^ 32)
    (h : absorb x b = absorb y b) : x = y := by
  have hb : b.toNat < 2 ^ 32 := by have := b.toNat_lt; omega
  exact xor_cancel _ _ _ (step8_inj _ _ (Nat.xor_lt_two_pow hx hb) (Nat.xor_lt_two_pow hy hb) h)

theorem fold_inj (m : List UInt8) (x y : Nat) (hx : x < 2 ^ 32) (hy : y < 2 ^ 32)
    (h : m.foldl absorb x = m.foldl absorb y) : x = y := by
  induction m generalizing x y with
  | nil => exact h
  | cons b m ih =>
    exact absorb_inj x y b hx hy (ih _ _ (absorb_lt x b hx) (absorb_lt y b hy) h)

/-- Little-endian value of a window. -/
def wordOf : List UInt8 → Nat
  | [] => 0
  | b :: l => b.toNat ^^^ (wordOf l <<< 8)

theorem fold_window (l : List UInt8) (c : Nat) : l.foldl absorb c = steps l.length (c ^^^ wordOf l) := by
  induction l generalizing c with
  | nil => simp [steps, wordOf]
  | cons b l ih =>
    rw [List.foldl_cons, ih]
    simp only [List.length_cons, steps, wordOf, absorb, step8_xor, step8_shl]
    simp only [Nat.xor_assoc]

theorem wordOf_lt (l : List UInt8) (n : Nat) (h : l.length = n) : wordOf l < 2 ^ (8 * n) := by
  induction l generalizing n with
  | nil => simp [wordOf]
  | cons b l ih =>
    subst h
    have := ih _ rfl
    rw [wordOf, List.length_cons]
    apply Nat.xor_lt_two_pow
    · have := b.toNat_lt
      have h2 : 2 ^ 8 ≤ 2 ^ (8 * (l.length + 1)) := Nat.pow_le_pow_right (by omega) (by omega)
      omega
    · rw [Nat.shiftLeft_eq, show 8 * (l.length + 1) = 8 * l.length + 8 by ring, Nat.pow_add]
      exact Nat.mul_lt_mul_of_pos_right this (by norm_num)

theorem wordOf_inj (x y : List UInt8) (hl : x.length = y.length) (h : wordOf x = wordOf y) : x = y := by
  induction x generalizing y with
  | nil => cases y with
    | nil => rfl
    | cons _ _ => simp at hl
  | cons a x ih =>
    cases y with
    | nil => simp at hl
    | cons b y =>
      simp only [wordOf] at h
      have hlow : ∀ (c : UInt8) (w : Nat), (c.toNat ^^^ (w <<< 8)) % 2 ^ 8 = c.toNat := by
        intro c w
        rw [Nat.xor_mod_two_pow, Nat.mod_eq_of_lt (by have := c.toNat_lt; omega), Nat.shiftLeft_eq,
          Nat.mul_mod_left, Nat.xor_zero]
      have h1 : a.toNat = b.toNat := by rw [← hlow a (wordOf x), h, hlow]
      have hab : a = b := UInt8.toNat.inj h1
      subst hab
      have h2 : wordOf x <<< 8 = wordOf y <<< 8 := by
        rw [Nat.xor_comm, Nat.xor_comm a.toNat] at h
        exact xor_cancel _ _ _ h
      rw [Nat.shiftLeft_eq, Nat.shiftLeft_eq] at h2
      rw [ih y (by simpa using hl) (by omega)]

theorem steps_inj (n x y : Nat) (hx : x < 2 ^ 32) (hy : y < 2 ^ 32) (h : steps n x = steps n y) :
    x = y := by
  induction n generalizing x y with
  | zero => exact h
  | succ n ih => exact step8_inj x y hx hy (ih _ _ (step8_lt x hx) (step8_lt y hy) h)

/-- C22: two messages that differ only inside a window of at most four bytes have different
checksums. -/
theorem crc_detects_window (pre x y post : List UInt8) (hlen : x.length = y.length)
    (hwin : x.length ≤ 4) (hne : x ≠ y) :
    update init (pre ++ x ++ post) ≠ update init (pre ++ y ++ post) := by
  intro h
  rw [crc_correct, crc_correct] at h
  unfold crc32c at h
  have h := xor_cancel _ _ _ h
  simp only [List.foldl_append] at h
  have hc : pre.foldl absorb 0xffffffff < 2 ^ 32 := foldl_absorb_lt _ _ (by norm_num)
  generalize pre.foldl absorb 0xffffffff = c at *
  have hw : ∀ z : List UInt8, z.length ≤ 4 → wordOf z < 2 ^ 32 := fun z hz =>
    lt_of_lt_of_le (wordOf_lt z _ rfl) (Nat.pow_le_pow_right (by omega) (by omega))
  have h1 := fold_inj post _ _ (foldl_absorb_lt _ _ hc) (foldl_absorb_lt _ _ hc) h
  rw [fold_window, fold_window, hlen] at h1
  have h2 := steps_inj _ _ _ (Nat.xor_lt_two_pow hc (hw x hwin))
    (Nat.xor_lt_two_pow hc (hw y (by omega))) h1
  rw [Nat.xor_comm, Nat.xor_comm c] at h2
  exact hne (wordOf_inj x y hlen (xor_cancel _ _ _ h2))

/-- In particular any change of a single byte. -/
theorem crc_detects_byte (pre post : List UInt8) (a b : UInt8) (h : a ≠ b) :
    update init (pre ++ a :: post) ≠ update init (pre ++ b :: post) := by
  have := crc_detects_window pre [a] [b] post rfl (by simp) (by simpa using h)
  simpa using this

example : ([1, 2, 3, 4] : List UInt8) ≠ [1, 2, 3, 5] := by decide

end Divans.Crc
