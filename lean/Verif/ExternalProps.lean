import Verif.External
import Verif.AnsProps
import Mathlib.Tactic.Linarith
import Mathlib.Tactic.NormNum
import Mathlib.Tactic.Ring
import Mathlib.Tactic.FieldSimp

/-!
# C100: probabilities from outside make a distribution that can be coded with
-/

namespace Divans.External
open Divans.Cdf Divans.Num

theorem ofByte_range (b : UInt8) : 0 ≤ ofByte b ∧ ofByte b ≤ 1 := by
  have h : b.toNat ≤ 255 := by have := b.toNat_lt; omega
  unfold ofByte
  have h2 : (b.toNat : ℚ) ≤ 255 := by exact_mod_cast h
  exact ⟨by positivity, by rw [div_le_one (by norm_num)]; exact h2⟩

theorem outside_nonneg (q : Probs) (n : Nat) : 0 ≤ outside q n := by
  have h : ∀ bit : Fin 4, 0 ≤ (if n.testBit (3 - bit.val) then ofByte (q bit) else 1 - ofByte (q bit)) := by
    intro bit
    have := ofByte_range (q bit)
    split <;> linarith
  unfold outside
  simp only [List.foldl_cons, List.foldl_nil, one_mul]
  exact mul_nonneg (mul_nonneg (mul_nonneg (h 0) (h 1)) (h 2)) (h 3)

theorem inside_default (n : Nat) (h : n < 16) : inside Cdf.default n = if n = 0 then 1 else 1 / 16 := by
  unfold inside
  have : ∀ n, n < 16 → n ≠ 0 → get Cdf.default n = get Cdf.default (n - 1) + 4 := by decide
  by_cases h0 : n = 0
  · simp [h0]
  · rw [if_neg h0, if_neg h0, this n h h0, show Cdf.max Cdf.default = 64 by decide]
    push_cast
    ring

/-- **C100, the assertion** in `init` holds for the distribution that is mixed in. -/
theorem checks_default : checks Cdf.default := by
  intro n h1 h2
  rw [inside_default n h2, if_neg (by omega)]
  norm_num

theorem both_ge (q : Probs) (n : Nat) (h : n < 16) : 1 / 32 ≤ both q Cdf.default n := by
  have := outside_nonneg q n
  unfold both
  rw [inside_default n h]
  split <;> linarith

theorem sums_total (q : Probs) : sums q Cdf.default 16 = 47 / 32 := by
  have e : ∀ n, n < 16 → both q Cdf.default n = (outside q n + if n = 0 then 1 else 1 / 16) / 2 := fun n h => by
    unfold both; rw [inside_default n h]
  simp only [sums]
  rw [e 0 (by decide), e 1 (by decide), e 2 (by decide), e 3 (by decide), e 4 (by decide), e 5 (by decide), e 6 (by decide),
    e 7 (by decide), e 8 (by decide), e 9 (by decide), e 10 (by decide), e 11 (by decide), e 12 (by decide), e 13 (by decide),
    e 14 (by decide), e 15 (by decide)]
  have t0 : ((0 : Fin 4) : Nat) = 0 := rfl
  have t1 : ((1 : Fin 4) : Nat) = 1 := rfl
  have t2 : ((2 : Fin 4) : Nat) = 2 := rfl
  have t3 : ((3 : Fin 4) : Nat) = 3 := rfl
  simp [outside, t0, t1, t2, t3, Nat.testBit, Nat.shiftRight]
  ring

/-- What the count would be without the two limits. -/
def raw (q : Probs) (k : Nat) : Int := ⌊sums q Cdf.default k / sums q Cdf.default 16 * 32767⌋

theorem raw_step (q : Probs) (k : Nat) (h : k < 16) : raw q k + 697 ≤ raw q (k + 1) := by
  unfold raw
  rw [← Int.floor_add_intCast]
  refine Int.floor_le_floor ?_
  rw [sums_total]
  have := both_ge q k h
  simp only [sums]
  push_cast
  have e : (sums q Cdf.default k + both q Cdf.default k) / (47 / 32) * 32767 =
    sums q Cdf.default k / (47 / 32) * 32767 + both q Cdf.default k / (47 / 32) * 32767 := by ring
  rw [e]
  have : (697 : ℚ) ≤ both q Cdf.default k / (47 / 32) * 32767 := by
    have h2 : both q Cdf.default k / (47 / 32) * 32767 = both q Cdf.default k * (32767 * 32 / 47) := by ring
    rw [h2]
    nlinarith
  linarith

theorem raw_zero (q : Probs) : raw q 0 = 0 := by simp [raw, sums]

theorem raw_last (q : Probs) : raw q 16 = 32767 := by
  unfold raw
  rw [sums_total, div_self (by norm_num), one_mul]
  exact Int.floor_natCast 32767

theorem raw_low (q : Probs) : ∀ k : Nat, k ≤ 16 → 697 * (k : Int) ≤ raw q k := by
  intro k
  induction k with
  | zero => intro _; rw [raw_zero]; simp
  | succ k ih => intro h; have := ih (by omega); have := raw_step q k (by omega); push_cast; omega

theorem raw_high (q : Probs) : ∀ j : Nat, j ≤ 16 → raw q (16 - j) + 697 * (j : Int) ≤ 32767 := by
  intro j
  induction j with
  | zero => intro _; rw [Nat.sub_zero, raw_last]; simp
  | succ j ih =>
    intro h
    have h1 := ih (by omega)
    have h2 := raw_step q (16 - (j + 1)) (by omega)
    rw [show 16 - (j + 1) + 1 = 16 - j by omega] at h2
    generalize raw q (16 - (j + 1)) = x at *
    push_cast
    omega

theorem get_init (q : Probs) (s : Nat) (h : s < 16) : get (init q Cdf.default) s = if s = 15 then 32766 else raw q (s + 1) := by
  have e : get (init q Cdf.default) s = min (Max.max (raw q (s + 1)) 1) 32766 := by
    unfold Cdf.get init
    simp only [Nat.mod_eq_of_lt h]
    rfl
  rw [e]
  split
  · rename_i hs
    rw [hs, raw_last]
    decide
  · have h1 := raw_low q (s + 1) (by omega)
    have h2 := raw_high q (15 - s) (by omega)
    rw [show 16 - (15 - s) = s + 1 by omega] at h2
    push_cast at h1
    omega

/-- A distribution relative to `maxProb` in which every count is at least two. -/
structure Good (c : Cdf) : Prop where
  first : 2 ≤ get c 0
  step : ∀ s, 1 ≤ s → s < 16 → get c (s - 1) + 2 ≤ get c s
  last : get c 15 < maxProb

theorem init_good (q : Probs) : Good (init q Cdf.default) := by
  refine ⟨?_, fun s h1 h2 => ?_, ?_⟩
  · rw [get_init q 0 (by decide), if_neg (by decide)]
    have := raw_low q (0 + 1) (by decide)
    omega
  · rw [get_init q s h2, get_init q (s - 1) (by omega), if_neg (show ¬ s - 1 = 15 by omega), show s - 1 + 1 = s by omega]
    have := raw_step q s h2
    split
    · rename_i h
      subst h
      have h3 : raw q (15 + 1) = 32767 := raw_last q
      omega
    · omega
  · rw [get_init q 15 (by decide), if_pos rfl]
    decide

variable {c : Cdf}

theorem Good.mono (h : Good c) : ∀ t, t < 16 → ∀ s, s ≤ t → get c s ≤ get c t := by
  intro t
  induction t with
  | zero => intro _ s hs; rw [Nat.le_zero.1 hs]
  | succ t ih =>
    intro ht s hs
    rcases Nat.lt_or_ge s (t + 1) with hlt | hge
    · have h1 := ih (by omega) s (by omega)
      have h2 := h.step (t + 1) (by omega) ht
      rw [Nat.add_sub_cancel] at h2
      omega
    · rw [show s = t + 1 by omega]

theorem Good.range (h : Good c) (s : Nat) (hs : s < 16) : 2 ≤ get c s ∧ get c s < 32767 := by
  have h1 := h.mono s hs 0 (by omega)
  have h2 := h.mono 15 (by decide) s (by omega)
  have h3 := h.first
  have h4 := h.last
  unfold maxProb at h4
  omega

/-- Where a symbol begins. -/
def below (c : Cdf) (s : Nat) : Int := if s = 0 then 0 else get c (s - 1)

theorem Good.below (h : Good c) (s : Nat) (hs : s < 16) : 0 ≤ below c s ∧ External.below c s + 2 ≤ get c s := by
  unfold External.below
  split
  · rename_i h0; subst h0; exact ⟨by decide, by have := h.first; omega⟩
  · have h1 := h.range (s - 1) (by omega)
    have h2 := h.step s (by omega) hs
    omega

theorem div_exact (v : Int) (h0 : 0 ≤ v) (h1 : v < 32767) : divByMax (v <<< 15) = v := by
  unfold divByMax maxProb
  rw [Int.shiftLeft_eq, Int.tdiv_eq_ediv_of_nonneg (by positivity)]
  omega

theorem range_eq (h : Good c) (s : Nat) (hs : s < 16) : External.range c s = ⟨below c s + 1, get c s - below c s - 1⟩ := by
  have h1 := h.range s hs
  have h2 := h.below s hs
  unfold External.range symRange
  have hp : (if s ≠ 0 then divByMax (get c (s - 1) <<< 15) else 0) = below c s := by
    unfold below
    by_cases h0 : s = 0
    · rw [if_neg (by simpa using h0), if_pos h0]
    · have h3 := h.range (s - 1) (by omega)
      rw [if_pos h0, if_neg h0, div_exact _ (by omega) h3.2]
  simp only [hp, div_exact (get c s) (by omega) h1.2]
  unfold i16
  congr 1 <;> omega

theorem slot_eq (h : Good c) (s : Nat) (hs : s < 16) :
    ((External.range c s).toSlot.start : Int) = below c s + 1 ∧ ((External.range c s).toSlot.freq : Int) = get c s - below c s - 1 := by
  have h1 := h.range s hs
  have h2 := h.below s hs
  rw [range_eq h s hs]
  simp only [Range.toSlot, u16]
  omega

theorem firstAbove_eq (h : Good c) (r : Int) (s : Nat) (hs : s < 16) (h1 : below c s ≤ r) (h2 : r < get c s) :
    ∀ k t, t ≤ s → t + k = 15 → firstAbove c r k t = s := by
  intro k
  induction k with
  | zero => intro t ht e; unfold firstAbove; omega
  | succ k ih =>
    intro t ht e
    unfold firstAbove
    by_cases hlt : t = s
    · rw [hlt, if_pos h2]
    · have h3 : get c t ≤ below c s := by
        unfold below
        rw [if_neg (by omega)]
        exact h.mono (s - 1) (by omega) t (by omega)
      rw [if_neg (by omega)]
      exact ih (t + 1) (by omega) (by omega)

theorem slots_of_good (h : Good c) :
    SlotsExact (fun s => (External.range c s).toSlot) (fun off => ((External.lookup c off).1, (External.lookup c off).2.toSlot)) := by
  refine ⟨fun s hs => ?_, fun s t hst ht => ?_, fun s hs off h1 h2 => ?_⟩
  · obtain ⟨e1, e2⟩ := slot_eq h s hs
    have h1 := h.range s hs
    have h2 := h.below s hs
    simp only [Ans.Slot.Valid]
    generalize (External.range c s).toSlot = x at *
    omega
  · obtain ⟨e1, e2⟩ := slot_eq h s (by omega)
    obtain ⟨e3, e4⟩ := slot_eq h t ht
    have h3 : get c s ≤ below c t := by
      unfold below
      rw [if_neg (by omega)]
      exact h.mono (t - 1) (by omega) s (by omega)
    simp only
    omega
  · obtain ⟨e1, e2⟩ := slot_eq h s hs
    have h3 := h.range s hs
    have h4 := h.below s hs
    simp only at h1 h2
    have hl : External.lookupSym c off = s := by
      unfold External.lookupSym maxProb
      have hr : i16 (((off : Int) * 32767) >>> 15) = off - 1 := by
        rw [Int.shiftRight_eq_div_pow]
        have hd : (off : Int) * 32767 / ((2 ^ 15 : Nat) : Int) = off - 1 := by
          norm_num
          omega
        rw [hd]
        unfold i16
        omega
      rw [hr]
      exact firstAbove_eq h _ s hs (by omega) (by omega) 15 0 (by omega) rfl
    simp only [External.lookup, hl]

/-- **C100, the probability from outside**: the product over the bits of the nibble, the highest first, of the byte's part of 255 for a
one and of the rest for a zero. -/
theorem outside_spec (q : Probs) (b : Fin 4 → Bool) :
    outside q (8 * (b 0).toNat + 4 * (b 1).toNat + 2 * (b 2).toNat + (b 3).toNat) =
      [0, 1, 2, 3].foldr (fun i acc => (if b i then ((q i).toNat : ℚ) / 255 else 1 - ((q i).toNat : ℚ) / 255) * acc) 1 := by
  have t0 : ((0 : Fin 4) : Nat) = 0 := rfl
  have t1 : ((1 : Fin 4) : Nat) = 1 := rfl
  have t2 : ((2 : Fin 4) : Nat) = 2 := rfl
  have t3 : ((3 : Fin 4) : Nat) = 3 := rfl
  cases h0 : b 0 <;> cases h1 : b 1 <;> cases h2 : b 2 <;> cases h3 : b 3 <;>
    simp [outside, ofByte, h0, h1, h2, h3, t0, t1, t2, t3, Nat.testBit, Nat.shiftRight] <;> ring

theorem sums_eq (q : Probs) : ∀ k, k ≤ 16 →
    sums q Cdf.default k = ((List.range k).map fun n => (outside q n + if n = 0 then 1 else 1 / 16) / 2).sum
  | 0, _ => rfl
  | k + 1, h => by
    rw [sums, sums_eq q k (by omega), List.range_succ, List.map_append, List.sum_append]
    simp [both, inside_default k (by omega)]

/-- **C100, the counts.**  The count up to a nibble is its part of 32767, rounded down, where each nibble weighs half of what comes from
outside and a half more of a sixteenth, or of one for the nibble 0, and all weigh 47/32; the last count is 32766. -/
theorem counts_spec (q : Probs) (s : Nat) (h : s < 16) : get (init q Cdf.default) s =
    if s = 15 then 32766 else
      ⌊((List.range (s + 1)).map fun n => (outside q n + if n = 0 then 1 else 1 / 16) / 2).sum / (47 / 32) * 32767⌋ := by
  rw [get_init q s h, raw, sums_eq q _ (by omega), sums_total]

/-- **C100.**  Whatever the four bytes are, the distribution gives each nibble a slot that is not empty, the slots do not overlap, and
every offset in a slot is looked up as its nibble: a decoder with the same bytes reads the nibble that was written. -/
theorem external_slots_exact (q : Probs) :
    SlotsExact (fun s => (External.range (init q Cdf.default) s).toSlot)
      (fun off => ((External.lookup (init q Cdf.default) off).1, (External.lookup (init q Cdf.default) off).2.toSlot)) :=
  slots_of_good (init_good q)

/-- **C100, in a literal.**  With eight bytes for each byte, as is asserted, every nibble has its four bytes and so a distribution to be
coded with. -/
theorem literal_slots_exact (probs : List UInt8) (len : Nat) (hl : probs.length = 8 * len) (i : Nat) (hi : i < 2 * len) :
    SlotsExact (fun s => (External.range (forNibble probs i) s).toSlot)
      (fun off => ((External.lookup (forNibble probs i) off).1, (External.lookup (forNibble probs i) off).2.toSlot)) := by
  have : ∃ q, bytesFor probs i = some q := by
    unfold bytesFor
    simp only
    rw [if_pos]
    · exact ⟨_, rfl⟩
    · split <;> omega
  obtain ⟨q, e⟩ := this
  unfold forNibble
  rw [e]
  exact external_slots_exact q

/-- **C100, which bytes.**  The upper half of a byte is coded with the last four of its eight bytes, and the lower half with the first. -/
theorem bytes_spec (before : List UInt8) (lo hi : Probs) (after : List UInt8) (k : Nat) (h : before.length = 8 * k) :
    bytesFor (before ++ (List.ofFn lo ++ List.ofFn hi) ++ after) (2 * k) = some hi ∧
      bytesFor (before ++ (List.ofFn lo ++ List.ofFn hi) ++ after) (2 * k + 1) = some lo := by
  have e1 : (2 * k + 1) / 2 = k := by omega
  have e2 : (2 * k + 1) % 2 = 1 := by omega
  constructor
  · simp only [bytesFor, Nat.mul_div_cancel_left k (by decide : 0 < 2), Nat.mul_mod_right, if_true]
    rw [if_pos (by simp; omega)]
    congr 1
    funext i
    rw [show k * 8 + 4 + 4 - 4 + i.val = before.length + (4 + i.val) by omega]
    simp [List.getD_eq_getElem?_getD, List.getElem?_append_right, List.ofFn_succ]
    match i with
    | 0 => rfl
    | 1 => rfl
    | 2 => rfl
    | 3 => rfl
  · simp only [bytesFor, e1, e2]
    rw [if_pos (by simp; omega)]
    congr 1
    funext i
    rw [show k * 8 + (if 1 = 0 then 4 else 0) + 4 - 4 + i.val = before.length + i.val by simp; omega]
    simp [List.getD_eq_getElem?_getD, List.getElem?_append_right, List.ofFn_succ]
    match i with
    | 0 => rfl
    | 1 => rfl
    | 2 => rfl
    | 3 => rfl

/-- **C100, the round trip.**  The nibbles of a literal, each coded with its distribution, come back from the bytes of the coder for a
decoder that has the same probabilities, in whatever pieces the bytes arrive, and exactly they are consumed. -/
theorem literal_round_trip (probs : List UInt8) (nibbles : List Nat) (hn : ∀ x ∈ nibbles, x < 16)
    (hl : 2 * probs.length = 8 * nibbles.length) (heven : nibbles.length % 2 = 0) (ops : List Ans.EncOp)
    (hputs : Ans.putsOf ops =
      Ans.slotsFrom (fun pre s => (External.range (forNibble probs pre.length) s).toSlot) [] nibbles)
    (hclosed : Ans.ClosedOnce ops) (out : List UInt8) (e : Ans.Enc) (hrun : Ans.Enc.init.run ops = some (out, e))
    (hdrained : e.q = []) (pieces : List (List UInt8)) (tail : List UInt8) (hpieces : pieces.flatten = out ++ tail) :
    ∃ d cur more,
      Ans.Dec.decode (fun pre off => ((External.lookup (forNibble probs pre.length) off).1,
        (External.lookup (forNibble probs pre.length) off).2.toSlot)) nibbles.length [] Ans.Dec.init [] pieces =
          some (nibbles, d, cur, more) ∧ cur ++ more.flatten = tail := by
  refine Ans.ans_round_trip_split _ _ nibbles ?_ ops hputs hclosed out e hrun hdrained pieces tail hpieces
  intro pre s post he
  have hs : s < 16 := hn s (by rw [he]; simp)
  have hlen : nibbles.length = pre.length + (post.length + 1) := by rw [he]; simp
  obtain ⟨h1, -, h3⟩ := literal_slots_exact probs (nibbles.length / 2) (by omega) pre.length (by omega)
  exact ⟨h1 s hs, h3 s hs⟩

/-- **C100 fails: it is not the average** of what comes from outside and the distribution mixed in.  The nibble 0 has a third of the
range or more whatever the bytes say. -/
theorem zero_is_likely (q : Probs) : 11154 ≤ get (init q Cdf.default) 0 := by
  rw [get_init q 0 (by decide), if_neg (by decide)]
  unfold raw
  rw [Int.le_floor, sums_total]
  have h := outside_nonneg q 0
  have e : sums q Cdf.default (0 + 1) = (outside q 0 + 1) / 2 := by
    simp only [sums, both, zero_add]
    rw [inside_default 0 (by decide), if_pos rfl]
  rw [e]
  push_cast
  have e2 : (outside q 0 + 1) / 2 / (47 / 32) * 32767 = (outside q 0 + 1) * (16 * 32767 / 47) := by ring
  rw [e2]
  nlinarith

/-- For bytes that exclude the nibble 0, its part of the average is a thirty-second, and its part of the distribution more than a
third. -/
theorem not_the_average : ∃ q : Probs, outside q 0 = 0 ∧
    (outside q 0 + (pdf Cdf.default 0 : ℚ) / (Cdf.max Cdf.default : ℚ)) / 2 = 1 / 32 ∧
    1 / 3 < (pdf (init q Cdf.default) 0 : ℚ) / (maxProb : ℚ) := by
  have h : outside (fun _ => 255) 0 = 0 := by decide +kernel
  refine ⟨fun _ => 255, h, ?_, ?_⟩
  · rw [h, show pdf Cdf.default 0 = 4 by decide, show Cdf.max Cdf.default = 64 by decide]
    norm_num
  · have h1 := zero_is_likely fun _ => 255
    have e : pdf (init (fun _ => 255) Cdf.default) 0 = get (init (fun _ => 255) Cdf.default) 0 := by simp [pdf]
    have h2 : (11154 : ℚ) ≤ (get (init (fun _ => 255) Cdf.default) 0 : ℚ) := by exact_mod_cast h1
    rw [e, show (maxProb : ℚ) = 32767 by norm_num [maxProb]]
    rw [lt_div_iff₀ (by norm_num)]
    linarith

/-- **C100 fails without bytes**: the distribution that is used then has no slot for any nibble.  (The state in which this would
happen is not reached: a literal without probabilities is coded in the other way.) -/
theorem empty_has_no_slots (s : Nat) (hs : s < 16) : ¬ (External.range empty s).toSlot.Valid := by
  have : ∀ s, s < 16 → ¬ ((External.range empty s).toSlot.freq < 2 ^ 15) := by decide
  exact fun h => this s hs h.2.1

/-! ## The theorems are not vacuous -/

/-- Bytes that say "fifteen", and the counts for them. -/
example : (List.range 16).map (get (init (fun _ => 255) Cdf.default)) =
    [11154, 11851, 12549, 13246, 13943, 14640, 15337, 16034, 16732, 17429, 18126, 18823, 19520, 20217, 20915, 32766] := by
  decide +kernel

/-- The upper half of a byte has the second four bytes, and the lower half the first. -/
example : (bytesFor [1, 2, 3, 4, 5, 6, 7, 8] 0).map (fun q => [q 0, q 1, q 2, q 3]) = some [5, 6, 7, 8] ∧
    (bytesFor [1, 2, 3, 4, 5, 6, 7, 8] 1).map (fun q => [q 0, q 1, q 2, q 3]) = some [1, 2, 3, 4] ∧
    (bytesFor [1, 2, 3, 4, 5, 6, 7, 8] 2).isNone := by decide +kernel

end Divans.External
