import Verif.AnsProps
import Verif.TallyProps
import Mathlib.Algebra.Order.Ring.Pow
import Mathlib.Tactic.Linarith
import Mathlib.Tactic.NormNum
import Mathlib.Tactic.Ring
import Mathlib.Tactic.GCongr

/-!
# C102: the coder writes as many bytes as the probabilities say

The product `odds` of the parts of 2^15 is the specification.  The argument follows the product of the two states and of what was
written: each symbol multiplies it by 2^15/freq, up to a part of 2^-16.
-/

namespace Divans.Ans

/-- The product of the parts of 2^15 of the slots. -/
def odds (sls : List Slot) : ℚ := (sls.map fun sl => (sl.freq : ℚ) / 2 ^ 15).prod

theorem odds_cons (sl : Slot) (r : List Slot) : odds (sl :: r) = (sl.freq : ℚ) / 2 ^ 15 * odds r := by simp [odds]

theorem odds_append (x y : List Slot) : odds (x ++ y) = odds x * odds y := by simp [odds]

theorem odds_pos (sls : List Slot) (hv : ∀ sl ∈ sls, sl.Valid) : 0 < odds sls := by
  refine List.prod_pos fun x hx => ?_
  obtain ⟨n, hn, rfl⟩ := List.mem_map.1 hx
  have : (1 : ℚ) ≤ (n.freq : ℚ) := by exact_mod_cast (hv n hn).1
  positivity

theorem push_both (s : Nat) (sl : Slot) (hv : sl.Valid) (h1 : 2 ^ 16 * sl.freq ≤ s) :
    s * (2 ^ 15 * 65535) ≤ push s sl * sl.freq * 2 ^ 16 ∧ push s sl * sl.freq * 2 ^ 16 ≤ s * (2 ^ 15 * 65537) := by
  obtain ⟨h3, h4, h5⟩ := hv
  have hm := Nat.mod_lt s (show 0 < sl.freq by omega)
  have hs := Nat.div_add_mod s sl.freq
  unfold push
  generalize s % sl.freq = m at *
  generalize s / sl.freq = d at *
  have e : (d * 2 ^ 15 + m + sl.start) * sl.freq * 2 ^ 16 = 2 ^ 31 * (sl.freq * d) + 2 ^ 16 * ((m + sl.start) * sl.freq) := by ring
  have b : (m + sl.start) * sl.freq ≤ 2 ^ 15 * sl.freq := Nat.mul_le_mul_right _ (by omega)
  rw [e]
  generalize (m + sl.start) * sl.freq = w at *
  generalize sl.freq * d = v at *
  constructor <;> omega

theorem renorm_both (a : Nat) (sl : Slot) (hv : sl.Valid) :
    a * 65535 ≤ (renorm a sl).2 * 2 ^ (8 * (renorm a sl).1.length) * 2 ^ 16 := by
  obtain ⟨h3, h4, h5⟩ := hv
  unfold renorm
  split_ifs with h
  · simp only [leBytes_length]
    omega
  · simp only [List.length_nil]
    omega

/-- The part that one symbol can add or take. -/
def eps : ℚ := 1 / 65536

theorem encF_both (sls : List Slot) (hv : ∀ sl ∈ sls, sl.Valid) :
    (2 : ℚ) ^ 62 * (1 - eps) ^ (2 * sls.length) ≤
        (((encF sls).1 * (encF sls).2.1 * 2 ^ (8 * (encF sls).2.2.length) : Nat) : ℚ) * odds sls ∧
      (((encF sls).1 * (encF sls).2.1 * 2 ^ (8 * (encF sls).2.2.length) : Nat) : ℚ) * odds sls ≤ 2 ^ 62 * (1 + eps) ^ sls.length := by
  induction sls with
  | nil => constructor <;> norm_num [encF, normInterval, odds]
  | cons sl r ih =>
    have hr : ∀ s ∈ r, s.Valid := fun s hs => hv s (List.mem_cons_of_mem _ hs)
    have hsl := hv sl List.mem_cons_self
    obtain ⟨ih1, ih2⟩ := ih hr
    have ho := odds_pos r hr
    obtain ⟨ha, hb⟩ := encF_ok r hr
    obtain ⟨h1, h2, -⟩ := renorm_bounds _ sl ha hsl
    obtain ⟨p1, p2⟩ := push_both _ sl hsl h1
    have l1 := renorm_both (encF r).1 sl hsl
    have l2 := renorm_len (encF r).1 sl
    rw [odds_cons]
    simp only [encF, List.length_append, List.length_cons]
    generalize encF r = st at *
    obtain ⟨a, b, q⟩ := st
    dsimp only at *
    generalize renorm a sl = rn at *
    obtain ⟨bs, s⟩ := rn
    dsimp only at *
    generalize odds r = o at *
    generalize push s sl = t at *
    have p1' : (s : ℚ) * (1 - eps) ≤ t * (sl.freq / 2 ^ 15) := by
      have : ((s * (2 ^ 15 * 65535) : Nat) : ℚ) ≤ ((t * sl.freq * 2 ^ 16 : Nat) : ℚ) := by exact_mod_cast p1
      push_cast at this
      unfold eps
      linarith
    have p2' : (t : ℚ) * (sl.freq / 2 ^ 15) ≤ s * (1 + eps) := by
      have : ((t * sl.freq * 2 ^ 16 : Nat) : ℚ) ≤ ((s * (2 ^ 15 * 65537) : Nat) : ℚ) := by exact_mod_cast p2
      push_cast at this
      unfold eps
      linarith
    have l1' : (a : ℚ) * (1 - eps) ≤ s * 2 ^ (8 * bs.length) := by
      have : ((a * 65535 : Nat) : ℚ) ≤ ((s * 2 ^ (8 * bs.length) * 2 ^ 16 : Nat) : ℚ) := by exact_mod_cast l1
      push_cast at this
      unfold eps
      linarith
    have l2' : (s : ℚ) * 2 ^ (8 * bs.length) ≤ a := by exact_mod_cast l2
    have e0 : (0 : ℚ) ≤ 1 - eps := by norm_num [eps]
    have e1 : (0 : ℚ) ≤ 1 + eps := by norm_num [eps]
    push_cast at ih1 ih2 ⊢
    generalize (1 - eps) = u at *
    generalize (1 + eps) = v at *
    generalize (sl.freq : ℚ) / 2 ^ 15 = f at *
    have split : (b : ℚ) * t * 2 ^ (8 * (bs.length + q.length)) * (f * o) =
        (t * f) * (2 ^ (8 * bs.length)) * (b * 2 ^ (8 * q.length) * o) := by
      rw [Nat.mul_add, pow_add]; ring
    rw [split]
    have hw : (0 : ℚ) ≤ b * 2 ^ (8 * q.length) * o := by positivity
    have hk : (0 : ℚ) < 2 ^ (8 * bs.length) := by positivity
    have ih1' : (2 : ℚ) ^ 62 * u ^ (2 * r.length) ≤ a * (b * 2 ^ (8 * q.length) * o) := by linarith
    have ih2' : a * (b * 2 ^ (8 * q.length) * o) ≤ (2 : ℚ) ^ 62 * v ^ r.length := by linarith
    generalize (b : ℚ) * 2 ^ (8 * q.length) * o = w at *
    generalize (2 : ℚ) ^ (8 * bs.length) = k at *
    constructor
    · calc (2 : ℚ) ^ 62 * u ^ (2 * (r.length + 1)) = (2 ^ 62 * u ^ (2 * r.length)) * (u * u) := by
            rw [Nat.mul_add, pow_add]; ring
        _ ≤ (a * w) * (u * u) := by gcongr
        _ = ((a * u) * u) * w := by ring
        _ ≤ ((s * k) * u) * w := by gcongr
        _ = ((s * u) * k) * w := by ring
        _ ≤ ((t * f) * k) * w := by gcongr
    · calc t * f * k * w ≤ (s * v) * k * w := by gcongr
        _ = (s * k) * (v * w) := by ring
        _ ≤ a * (v * w) := by gcongr
        _ = (a * w) * v := by ring
        _ ≤ (2 ^ 62 * v ^ r.length) * v := by gcongr
        _ = 2 ^ 62 * v ^ (r.length + 1) := by ring

theorem half_le (x : ℚ) (n : Nat) (h : (n : ℚ) * x = 1 / 2) (h1 : x ≤ 1) : 1 / 2 ≤ (1 - x) ^ n := by
  have := one_add_mul_le_pow (a := -x) (by linarith) n
  have e : (1 : ℚ) + -x = 1 - x := by ring
  rw [e] at this
  linarith

theorem eps_half : (1 : ℚ) / 2 ≤ (1 - eps) ^ 32768 := half_le eps 32768 (by norm_num [eps]) (by norm_num [eps])

theorem eps_low (n : Nat) (h : n ≤ 65536) : (1 : ℚ) / 16 ≤ (1 - eps) ^ (2 * n) := by
  have e0 : (0 : ℚ) ≤ 1 - eps := by norm_num [eps]
  have e1 : 1 - eps ≤ 1 := by norm_num [eps]
  have hh := eps_half
  generalize 1 - eps = u at *
  calc (1 : ℚ) / 16 = (1 / 2) ^ 4 := by norm_num
    _ ≤ (u ^ 32768) ^ 4 := by gcongr
    _ = u ^ (32768 * 4) := (pow_mul u 32768 4).symm
    _ ≤ u ^ (2 * n) := pow_le_pow_of_le_one e0 e1 (by omega)

theorem eps_high (n : Nat) (h : n ≤ 65536) : (1 + eps) ^ n ≤ (4 : ℚ) := by
  have e0 : (0 : ℚ) ≤ 1 - eps := by norm_num [eps]
  have e1 : (1 : ℚ) ≤ 1 + eps := by norm_num [eps]
  have e2 : (1 + eps) * (1 - eps) ≤ 1 := by norm_num [eps]
  have hh := eps_half
  generalize 1 - eps = u at *
  generalize 1 + eps = v at *
  have v0 : (0 : ℚ) ≤ v := by linarith
  have a1 : v ^ 32768 * u ^ 32768 ≤ 1 := by
    rw [← mul_pow]
    exact pow_le_one₀ (mul_nonneg v0 e0) e2
  have a0 : 0 ≤ v ^ 32768 := pow_nonneg v0 _
  have a2 : v ^ 32768 ≤ 2 := by
    generalize v ^ 32768 = y at *
    generalize u ^ 32768 = z at *
    nlinarith
  calc v ^ n ≤ v ^ (32768 * 2) := pow_le_pow_right₀ e1 (by omega)
    _ = (v ^ 32768) ^ 2 := pow_mul v 32768 2
    _ ≤ 2 ^ 2 := by gcongr
    _ = 4 := by norm_num

theorem chunk_size (sls : List Slot) (hv : ∀ sl ∈ sls, sl.Valid) (hn : sls.length ≤ 65536) :
    1 ≤ (2 : ℚ) ^ (8 * (chunkBytes sls).length) * odds sls ∧ (2 : ℚ) ^ (8 * (chunkBytes sls).length) * odds sls ≤ 2 ^ 130 := by
  obtain ⟨h1, h2⟩ := encF_both sls hv
  have hlo := eps_low _ hn
  have hhi := eps_high _ hn
  have ho := odds_pos sls hv
  obtain ⟨⟨a1, a2⟩, ⟨b1, b2⟩⟩ := encF_ok sls hv
  rw [chunkBytes_length, Nat.mul_add, pow_add]
  generalize encF sls = st at *
  obtain ⟨a, b, q⟩ := st
  dsimp only at *
  push_cast at h1 h2
  generalize (1 - eps) ^ (2 * sls.length) = u at *
  generalize (1 + eps) ^ sls.length = v at *
  have A1 : (2 : ℚ) ^ 31 ≤ a := by exact_mod_cast a1
  have A2 : (a : ℚ) ≤ 2 ^ 63 := by exact_mod_cast a2.le
  have B1 : (2 : ℚ) ^ 31 ≤ b := by exact_mod_cast b1
  have B2 : (b : ℚ) ≤ 2 ^ 63 := by exact_mod_cast b2.le
  have hk : (0 : ℚ) < 2 ^ (8 * q.length) * odds sls := by positivity
  rw [mul_assoc] at h1 h2 ⊢
  generalize (2 : ℚ) ^ (8 * q.length) * odds sls = k at *
  have c1 : (2 : ℚ) ^ 31 * 2 ^ 31 * k ≤ a * b * k := by gcongr
  have c2 : (a : ℚ) * b * k ≤ 2 ^ 63 * 2 ^ 63 * k := by gcongr
  constructor
  · have : (2 : ℚ) ^ 62 * (1 / 16) ≤ 2 ^ 63 * 2 ^ 63 * k := by linarith
    norm_num at this ⊢
    linarith
  · have : (2 : ℚ) ^ 31 * 2 ^ 31 * k ≤ 2 ^ 62 * 4 := by linarith
    norm_num at this ⊢
    linarith

theorem stream_size (n : Nat) : ∀ sls : List Slot, sls.length ≤ n → (∀ sl ∈ sls, sl.Valid) →
    1 ≤ (2 : ℚ) ^ (8 * (streamBytes sls).length) * odds sls ∧
      (2 : ℚ) ^ (8 * (streamBytes sls).length) * odds sls ≤ 2 ^ (130 * ((sls.length + 65535) / 65536)) := by
  induction n with
  | zero =>
    intro sls hl _
    have : sls = [] := List.length_eq_zero_iff.1 (by omega)
    subst this
    rw [streamBytes]
    norm_num [odds]
  | succ n ih =>
    intro sls hl hv
    by_cases h : sls = []
    · subst h
      rw [streamBytes]
      norm_num [odds]
    have hpos := List.length_pos_iff.2 h
    have hC : symbolsPerChunk = 65536 := rfl
    rw [streamBytes, dif_neg h, hC]
    have hd : (sls.drop 65536).length ≤ n := by simp; omega
    obtain ⟨i1, i2⟩ := ih (sls.drop 65536) hd fun s hs => hv s (List.mem_of_mem_drop hs)
    obtain ⟨c1, c2⟩ := chunk_size (sls.take 65536) (fun s hs => hv s (List.mem_of_mem_take hs)) (by simp)
    have eo : odds sls = odds (sls.take 65536) * odds (sls.drop 65536) := by rw [← odds_append, List.take_append_drop]
    have ec : (sls.length + 65535) / 65536 = ((sls.drop 65536).length + 65535) / 65536 + 1 := by
      rw [List.length_drop]; omega
    rw [eo, ec, List.length_append, Nat.mul_add, pow_add, Nat.mul_add, pow_add]
    have es : ∀ x y z w : ℚ, x * y * (z * w) = (x * z) * (y * w) := fun x y z w => by ring
    rw [es]
    refine ⟨one_le_mul_of_one_le_of_one_le c1 i1, ?_⟩
    rw [mul_comm ((2 : ℚ) ^ (130 * _))]
    exact mul_le_mul (by simpa using c2) i2 (by linarith) (by positivity)

/-- **C102.**  For every way of taking the output, the coder's bytes are at least as many as the probabilities of the symbols say, and
at most 130 bits more for each 65536 symbols begun. -/
theorem size_bounds (ops : List EncOp) (hv : ∀ sl ∈ putsOf ops, sl.Valid) (hclosed : ClosedOnce ops) (out : List UInt8) (e : Enc)
    (hrun : Enc.init.run ops = some (out, e)) (hdrained : e.q = []) :
    1 ≤ (2 : ℚ) ^ (8 * out.length) * odds (putsOf ops) ∧
      (2 : ℚ) ^ (8 * out.length) * odds (putsOf ops) ≤ 2 ^ (130 * (((putsOf ops).length + 65535) / 65536)) := by
  have hb := run_spec ops Enc.init out e (by simp [Enc.init, symbolsPerChunk, maxBufferSize]) (by simp [Enc.init]) hv hclosed hrun
  rw [hdrained] at hb
  simp only [Enc.init, List.append_nil, List.nil_append, List.reverse_nil] at hb
  rw [hb]
  exact stream_size _ _ le_rfl hv

/-- **C102, in bits**: with the number of bits as the negative binary logarithm. -/
theorem size_in_bits (ops : List EncOp) (hv : ∀ sl ∈ putsOf ops, sl.Valid) (hclosed : ClosedOnce ops) (out : List UInt8) (e : Enc)
    (hrun : Enc.init.run ops = some (out, e)) (hdrained : e.q = []) :
    Tally.bits (odds (putsOf ops)) ≤ 8 * out.length ∧
      (8 * out.length : ℝ) ≤ Tally.bits (odds (putsOf ops)) + 130 * ((((putsOf ops).length + 65535) / 65536 : Nat) : ℝ) := by
  obtain ⟨h1, h2⟩ := size_bounds ops hv hclosed out e hrun hdrained
  have ho := odds_pos _ hv
  have ho' : (0 : ℝ) < (odds (putsOf ops) : ℝ) := by exact_mod_cast ho
  have h1' : (1 : ℝ) ≤ (2 : ℝ) ^ (8 * out.length) * (odds (putsOf ops) : ℝ) := by exact_mod_cast h1
  have h2' : (2 : ℝ) ^ (8 * out.length) * (odds (putsOf ops) : ℝ) ≤ 2 ^ (130 * (((putsOf ops).length + 65535) / 65536)) := by
    exact_mod_cast h2
  have l1 := Real.logb_le_logb_of_le (b := 2) (by norm_num) (by norm_num) h1'
  have l2 := Real.logb_le_logb_of_le (b := 2) (by norm_num) (by positivity) h2'
  rw [Real.logb_mul (by positivity) ho'.ne', Real.logb_pow, Real.logb_self_eq_one (by norm_num)] at l1 l2
  rw [Real.logb_one] at l1
  rw [Real.logb_pow, Real.logb_self_eq_one (by norm_num)] at l2
  push_cast at l1 l2
  unfold Tally.bits
  constructor
  · linarith
  · push_cast
    linarith

theorem odds_ge (sls : List Slot) (hv : ∀ sl ∈ sls, sl.Valid) : 1 ≤ (2 : ℚ) ^ (15 * sls.length) * odds sls := by
  induction sls with
  | nil => simp [odds]
  | cons sl r ih =>
    have h1 := ih fun s hs => hv s (List.mem_cons_of_mem _ hs)
    have h2 : (1 : ℚ) ≤ sl.freq := by exact_mod_cast (hv sl List.mem_cons_self).1
    rw [odds_cons, List.length_cons, Nat.mul_add, pow_add]
    have e : (2 : ℚ) ^ (15 * r.length) * 2 ^ (15 * 1) * (sl.freq / 2 ^ 15 * odds r) =
        sl.freq * (2 ^ (15 * r.length) * odds r) := by ring
    rw [e]
    exact one_le_mul_of_one_le_of_one_le h2 h1

/-- **C102, at the worst**: whatever the probabilities, at most 15 bits for each symbol, and 130 for each 65536 begun. -/
theorem size_max (ops : List EncOp) (hv : ∀ sl ∈ putsOf ops, sl.Valid) (hclosed : ClosedOnce ops) (out : List UInt8) (e : Enc)
    (hrun : Enc.init.run ops = some (out, e)) (hdrained : e.q = []) :
    8 * out.length ≤ 15 * (putsOf ops).length + 130 * (((putsOf ops).length + 65535) / 65536) := by
  have h2 := (size_bounds ops hv hclosed out e hrun hdrained).2
  have h3 := odds_ge _ hv
  have ho := odds_pos _ hv
  generalize ((putsOf ops).length + 65535) / 65536 = c at *
  have h4 : (2 : ℚ) ^ (8 * out.length) ≤ 2 ^ (15 * (putsOf ops).length + 130 * c) := by
    calc (2 : ℚ) ^ (8 * out.length) ≤ 2 ^ (8 * out.length) * (2 ^ (15 * (putsOf ops).length) * odds (putsOf ops)) :=
          le_mul_of_one_le_right (by positivity) h3
      _ = 2 ^ (15 * (putsOf ops).length) * (2 ^ (8 * out.length) * odds (putsOf ops)) := by ring
      _ ≤ 2 ^ (15 * (putsOf ops).length) * 2 ^ (130 * c) := by gcongr
      _ = 2 ^ (15 * (putsOf ops).length + 130 * c) := by rw [pow_add]
  exact (pow_le_pow_iff_right₀ (by norm_num : (1 : ℚ) < 2)).1 h4

/-- The nibbles of the counting coder have the slots of the coder that writes. -/
theorem odds_eq_chance (ns : List Tally.Nibble) : odds (ns.map fun n => n.range.toSlot) = Tally.chance ns := by
  simp [odds, Tally.chance, Function.comp_def]

/-! ## The theorems are not vacuous -/

/-- Every sequence of slots is coded by some run, to which the theorem applies. -/
example (slots : List Slot) (hv : ∀ sl ∈ slots, sl.Valid) : ∃ ops out e, putsOf ops = slots ∧ Enc.init.run ops = some (out, e) ∧
    1 ≤ (2 : ℚ) ^ (8 * out.length) * odds slots := by
  obtain ⟨out, e, h1, h2, h3, h4⟩ := ans_encode_total slots hv
  exact ⟨_, out, e, h3, h1, by have := (size_bounds _ (by rw [h3]; exact hv) h4 out e h1 h2).1; rwa [h3] at this⟩

end Divans.Ans
