import Verif.Weights
import Verif.CdfProps

/-!
Property theorems: mixing weights (C32) and the 8-bit speed format (C33).
-/
namespace Divans.Weights
open Divans.Num

theorem mask_zero (a b : Nat) (ha : a < 2 ^ 31) (hb : b < 2 ^ 31)
    (h : (a ||| b) &&& 0x7f000000 = 0) : a < 2 ^ 24 ∧ b < 2 ^ 24 := by
  have key : ∀ i, 24 ≤ i → i < 31 → (a ||| b).testBit i = false := by
    intro i h1 h2
    have h3 : ((a ||| b) &&& 0x7f000000).testBit i = false := by rw [h]; simp
    rw [Nat.testBit_and] at h3
    have h4 : Nat.testBit 0x7f000000 i = true := by
      rcases (show i = 24 ∨ i = 25 ∨ i = 26 ∨ i = 27 ∨ i = 28 ∨ i = 29 ∨ i = 30 by omega) with
        h | h | h | h | h | h | h <;> subst h <;> decide
    rw [h4] at h3
    simpa using h3
  have hbits : ∀ x, x < 2 ^ 31 → (∀ i, x.testBit i = true → (a ||| b).testBit i = true) →
      x < 2 ^ 24 := by
    intro x hx hsub
    apply Nat.lt_pow_two_of_testBit
    intro i hi
    by_contra hc
    have h1 : x.testBit i = true := by simpa using hc
    have h2 := hsub i h1
    by_cases h31 : i < 31
    · rw [key i hi h31] at h2; simp at h2
    · have : x.testBit i = false :=
        Nat.testBit_lt_two_pow (lt_of_lt_of_le hx (Nat.pow_le_pow_right (by omega) (by omega)))
      rw [this] at h1; simp at h1
  exact ⟨hbits a ha (fun i hi => by simp [hi]), hbits b hb (fun i hi => by simp [hi])⟩

theorem bitLen_le (n k : Nat) (h : n < 2 ^ k) : bitLen n ≤ k := by
  by_cases h0 : n = 0
  · simp [bitLen, h0]
  · obtain ⟨b1, -, b3⟩ := bitLen_bounds n h0
    by_contra hc
    have : 2 ^ k ≤ 2 ^ (bitLen n - 1) := Nat.pow_le_pow_right (by omega) (by omega)
    omega

theorem lt_bitLen (n : Nat) : n < 2 ^ bitLen n := by
  by_cases h0 : n = 0
  · simp [bitLen, h0]
  · exact (bitLen_bounds n h0).2.1

theorem shr_lt (w : Int) (hw : 0 ≤ w) (hw2 : w < 2 ^ 31) (l : Nat) (hl : bitLen w.toNat ≤ l)
    (hl24 : 24 ≤ l) : 0 ≤ w >>> (l - 24) ∧ w >>> (l - 24) < 2 ^ 24 := by
  obtain ⟨n, rfl⟩ : ∃ n : Nat, w = n := ⟨w.toNat, by omega⟩
  rw [Int.toNat_natCast] at hl
  have h1 := lt_bitLen n
  have h2 : 2 ^ bitLen n ≤ 2 ^ l := Nat.pow_le_pow_right (by omega) hl
  have h3 : 2 ^ l = 2 ^ 24 * 2 ^ (l - 24) := by rw [← Nat.pow_add]; congr 1; omega
  rw [Int.shiftRight_eq_div_pow]
  have h4 : n / 2 ^ (l - 24) < 2 ^ 24 := by
    rw [Nat.div_lt_iff_lt_mul (by positivity)]; omega
  constructor
  · positivity
  · exact_mod_cast h4

theorem normalize_bounds (w0 w1 : Int) (h0 : 0 ≤ w0) (h1 : 0 ≤ w1) (h2 : w0 < 2 ^ 31)
    (h3 : w1 < 2 ^ 31) :
    (0 ≤ (normalizeWeights w0 w1).1 ∧ (normalizeWeights w0 w1).1 < 2 ^ 24) ∧
    (0 ≤ (normalizeWeights w0 w1).2 ∧ (normalizeWeights w0 w1).2 < 2 ^ 24) := by
  unfold normalizeWeights
  split_ifs with hc
  · unfold fixWeights
    have hb0 : bitLen w0.toNat ≤ 31 := bitLen_le _ _ (by omega)
    have hb1 : bitLen w1.toNat ≤ 31 := bitLen_le _ _ (by omega)
    have hi : 32 - min (Cdf.clz32 w0) (Cdf.clz32 w1) = Nat.max (bitLen w0.toNat) (bitLen w1.toNat) := by
      simp only [Cdf.clz32]
      rcases Nat.le_total (bitLen w0.toNat) (bitLen w1.toNat) with h | h
      · rw [show Nat.max (bitLen w0.toNat) (bitLen w1.toNat) = bitLen w1.toNat from max_eq_right h]
        omega
      · rw [show Nat.max (bitLen w0.toNat) (bitLen w1.toNat) = bitLen w0.toNat from max_eq_left h]
        omega
    have l0 : bitLen w0.toNat ≤ Nat.max (bitLen w0.toNat) (bitLen w1.toNat) := le_max_left _ _
    have l1 : bitLen w1.toNat ≤ Nat.max (bitLen w0.toNat) (bitLen w1.toNat) := le_max_right _ _
    simp only [hi]
    generalize Nat.max (bitLen w0.toNat) (bitLen w1.toNat) = l at *
    split_ifs with hl
    · exact ⟨shr_lt w0 h0 h2 l l0 hl, shr_lt w1 h1 h3 l l1 hl⟩
    · have p0 := lt_bitLen w0.toNat
      have p1 := lt_bitLen w1.toNat
      have q0 : 2 ^ bitLen w0.toNat ≤ 2 ^ 24 := Nat.pow_le_pow_right (by omega) (by omega)
      have q1 : 2 ^ bitLen w1.toNat ≤ 2 ^ 24 := Nat.pow_le_pow_right (by omega) (by omega)
      refine ⟨⟨h0, ?_⟩, ⟨h1, ?_⟩⟩ <;> dsimp only <;> omega
  · have := mask_zero w0.toNat w1.toNat (by omega) (by omega) (by simpa using hc)
    dsimp only
    omega

/-- The weight update in unbounded integer arithmetic: the weight moves by
`(1 - p)(n - p) / 2^(bits of p(1-p))`, in units of `2^-15`, but never below 1. -/
def newWeightSpec (n p wi : Int) : Int :=
  max 1 (wi + (2 ^ 15 - p) * (2 ^ 15 * (n - p)) / 2 ^ bitLen (p * (2 ^ 15 - p)).toNat)

theorem newWeight_eq (n p wi : Int) (hn : 0 ≤ n) (hn2 : n < 2 ^ 15) (hp : 1 ≤ p) (hp2 : p < 2 ^ 15)
    (hw : 0 ≤ wi) (hw2 : wi < 2 ^ 24) :
    newWeight n p wi = newWeightSpec n p wi ∧ 1 ≤ newWeight n p wi ∧ newWeight n p wi < 2 ^ 31 := by
  have g1 : 1 ≤ p * (2 ^ 15 - p) := by nlinarith
  have g2 : p * (2 ^ 15 - p) ≤ 2 ^ 30 := by nlinarith
  have e1 : i64 (2 ^ 15 - p) = 2 ^ 15 - p := i64_id _ (by omega) (by omega)
  have e2 : i64 (2 ^ 15 * n) = 2 ^ 15 * n := i64_id _ (by omega) (by omega)
  have e3 : i64 (p * 2 ^ 15) = p * 2 ^ 15 := i64_id _ (by omega) (by omega)
  have e4 : i64 (2 ^ 15 * n - p * 2 ^ 15) = 2 ^ 15 * (n - p) := by
    rw [i64_id _ (by omega) (by omega)]; ring
  have e5 : i64 (p * (2 ^ 15 - p)) = p * (2 ^ 15 - p) := i64_id _ (by omega) (by omega)
  have hlen : len64 (p * (2 ^ 15 - p)) = bitLen (p * (2 ^ 15 - p)).toNat := by
    unfold len64; rw [if_neg (by omega)]
  have hl : p * (2 ^ 15 - p) < 2 ^ bitLen (p * (2 ^ 15 - p)).toNat := by
    have := lt_bitLen (p * (2 ^ 15 - p)).toNat
    have h2 : (((p * (2 ^ 15 - p)).toNat : Nat) : Int) < ((2 ^ bitLen (p * (2 ^ 15 - p)).toNat : Nat) : Int) := by
      exact_mod_cast this
    rw [Int.toNat_of_nonneg (by omega)] at h2
    exact_mod_cast h2
  have b1 : (2 ^ 15 - p) * (2 ^ 15 * (n - p)) ≤ 2 ^ 30 * (p * (2 ^ 15 - p)) := by nlinarith
  have b2 : -(2 ^ 15 * (p * (2 ^ 15 - p))) ≤ (2 ^ 15 - p) * (2 ^ 15 * (n - p)) := by nlinarith
  have e6 : i64 ((2 ^ 15 - p) * (2 ^ 15 * (n - p))) = (2 ^ 15 - p) * (2 ^ 15 * (n - p)) :=
    i64_id _ (by omega) (by omega)
  unfold newWeight newWeightSpec
  simp only [e1, e2, e3, e4, e5, e6, hlen, Int.shiftRight_eq_div_pow, Nat.cast_pow, Nat.cast_ofNat]
  generalize hK : (2 : Int) ^ bitLen (p * (2 ^ 15 - p)).toNat = K at *
  have hK0 : 0 < K := by omega
  generalize (2 ^ 15 - p) * (2 ^ 15 * (n - p)) = N at *
  generalize p * (2 ^ 15 - p) = G at *
  have d1 : N / K ≤ 2 ^ 30 := by
    apply Int.ediv_le_of_le_mul hK0
    nlinarith
  have d2 : -2 ^ 15 ≤ N / K := by
    rw [Int.le_ediv_iff_mul_le hK0]
    nlinarith
  generalize N / K = A at *
  have e7 : i64 (wi + A) = wi + A := i64_id _ (by omega) (by omega)
  have e8 : i32 (wi + A) = wi + A := i32_id _ (by omega) (by omega)
  rw [e7, e8]
  split_ifs <;> omega

/-- The mixing rate as a ratio: `256 * w0 / (w0 + w1)` on the leading eight bits, times 128. -/
def mixRateSpec (w0 w1 : Int) : Int :=
  (w0 / 2 ^ (bitLen (w0 + w1).toNat - 8)) * 256 / ((w0 + w1) / 2 ^ (bitLen (w0 + w1).toNat - 8)) * 128

theorem normWeight_eq (w0 w1 : Int) (h0 : 1 ≤ w0) (h1 : 1 ≤ w1) (h2 : w0 < 2 ^ 31)
    (h3 : w1 < 2 ^ 31) :
    u16 (normWeight w0 w1) = mixRateSpec w0 w1 ∧ 0 ≤ mixRateSpec w0 w1 ∧
      mixRateSpec w0 w1 ≤ 2 ^ 15 := by
  unfold normWeight mixRateSpec
  have hlen : len64 (w0 + w1) = bitLen (w0 + w1).toNat := by unfold len64; rw [if_neg (by omega)]
  simp only [hlen, Int.shiftRight_eq_div_pow, Nat.cast_pow, Nat.cast_ofNat]
  obtain ⟨b1, b2, b3⟩ := bitLen_bounds (w0 + w1).toNat (by omega)
  have hT : (w0 + w1) / 2 ^ (bitLen (w0 + w1).toNat - 8) < 256 ∧
      2 ≤ (w0 + w1) / 2 ^ (bitLen (w0 + w1).toNat - 8) := by
    by_cases h8 : bitLen (w0 + w1).toNat ≤ 8
    · have e : bitLen (w0 + w1).toNat - 8 = 0 := by omega
      have : 2 ^ bitLen (w0 + w1).toNat ≤ 2 ^ 8 := Nat.pow_le_pow_right (by omega) h8
      rw [e]
      simp
      omega
    · have e1 : 2 ^ bitLen (w0 + w1).toNat = 2 ^ 8 * 2 ^ (bitLen (w0 + w1).toNat - 8) := by
        rw [← Nat.pow_add]; congr 1; omega
      have e2 : 2 ^ (bitLen (w0 + w1).toNat - 1) = 2 ^ 7 * 2 ^ (bitLen (w0 + w1).toNat - 8) := by
        rw [← Nat.pow_add]; congr 1; omega
      rw [e1] at b2; rw [e2] at b1
      generalize bitLen (w0 + w1).toNat - 8 = k at *
      have hk : (0 : Int) < 2 ^ k := by positivity
      have b1' : (2 : Int) ^ 7 * 2 ^ k ≤ (w0 + w1).toNat := by exact_mod_cast b1
      have b2' : ((w0 + w1).toNat : Int) < 2 ^ 8 * 2 ^ k := by exact_mod_cast b2
      constructor
      · rw [Int.ediv_lt_iff_lt_mul hk]; omega
      · rw [Int.le_ediv_iff_mul_le hk]; omega
  have hkpos : (0 : Int) < 2 ^ (bitLen (w0 + w1).toNat - 8) := by positivity
  generalize (2 : Int) ^ (bitLen (w0 + w1).toNat - 8) = K at *
  have hle : w0 / K ≤ (w0 + w1) / K := Int.ediv_le_ediv hkpos (by omega)
  have h00 : 0 ≤ w0 / K := Int.ediv_nonneg (by omega) (by omega)
  generalize (w0 + w1) / K = T at *
  generalize w0 / K = A at *
  obtain ⟨t, rfl⟩ : ∃ t : Nat, T = t := ⟨T.toNat, by omega⟩
  obtain ⟨a, rfl⟩ : ∃ a : Nat, A = a := ⟨A.toNat, by omega⟩
  have ht : (((t : Int) % 256).toNat) = t := by omega
  have ha : (u16 (u16 (a : Int) * 2 ^ 8)).toNat = a * 256 := by unfold u16; omega
  rw [ht, ha, fast_divide8_exact_partial t (a * 256) (by omega) (by omega) (by omega) (by omega)]
  have hq : a * 256 / t ≤ 256 := by
    apply Nat.div_le_of_le_mul
    nlinarith
  have hq2 : ((a : Int) * 256 / t) = ((a * 256 / t : Nat) : Int) := by push_cast; rfl
  rw [hq2]
  generalize a * 256 / t = q at *
  refine ⟨?_, by omega, by omega⟩
  unfold u16 i16
  omega

/-- A step of the weight history: the frequencies the two models gave to the coded symbol and the
frequency of the mixture, all as returned by valid distributions. -/
structure Step where
  n0 : Int
  n1 : Int
  p : Int

/-- The frequencies are those of valid slots. -/
def Step.Valid (s : Step) : Prop :=
  (0 ≤ s.n0 ∧ s.n0 < 2 ^ 15) ∧ (0 ≤ s.n1 ∧ s.n1 < 2 ^ 15) ∧ 1 ≤ s.p ∧ s.p < 2 ^ 15

/-- C32: after any history of coded symbols both weights are positive 31-bit numbers, and the mixing
rate handed to the mixer is in `[0, 2^15]`. -/
theorem weights_history (hist : List Step) (hv : ∀ s ∈ hist, s.Valid) :
    let w := hist.foldl (fun w s => w.update (s.n0, s.n1) s.p) Weights.new
    (1 ≤ w.w0 ∧ w.w0 < 2 ^ 31) ∧ (1 ≤ w.w1 ∧ w.w1 < 2 ^ 31) ∧
      0 ≤ w.mixRate ∧ w.mixRate ≤ 2 ^ 15 := by
  induction hist using List.reverseRecOn with
  | nil => decide
  | append_singleton l s ih =>
    obtain ⟨a, b, -⟩ := ih (fun y hy => hv y (by simp [hy]))
    obtain ⟨v0, v1, v2, v3⟩ := hv s (by simp)
    simp only [List.foldl_append, List.foldl_cons, List.foldl_nil]
    generalize l.foldl (fun w s => w.update (s.n0, s.n1) s.p) Weights.new = w at *
    obtain ⟨⟨m0, m0'⟩, ⟨m1, m1'⟩⟩ := normalize_bounds w.w0 w.w1 (by omega) (by omega) a.2 b.2
    obtain ⟨-, x1, x2⟩ := newWeight_eq s.n0 s.p _ v0.1 v0.2 v2 v3 m0 m0'
    obtain ⟨-, y1, y2⟩ := newWeight_eq s.n1 s.p _ v1.1 v1.2 v2 v3 m1 m1'
    obtain ⟨z1, z2, z3⟩ := normWeight_eq _ _ x1 y1 x2 y2
    refine ⟨⟨x1, x2⟩, ⟨y1, y2⟩, ?_⟩
    show 0 ≤ u16 _ ∧ u16 _ ≤ 2 ^ 15
    rw [Weights.update]
    dsimp only
    rw [z1]
    exact ⟨z2, z3⟩

/-- C32: one update, from any state the history can reach, is the unbounded computation: weights are
first halved together until they fit 24 bits, then moved by `newWeightSpec`, and the new rate is
`mixRateSpec` of them (no wrap-around, no division error). -/
theorem weights_update_exact (w : Weights) (s : Step) (hs : s.Valid) (h0 : 1 ≤ w.w0)
    (h1 : 1 ≤ w.w1) (h2 : w.w0 < 2 ^ 31) (h3 : w.w1 < 2 ^ 31) :
    let n := normalizeWeights w.w0 w.w1
    let w' := w.update (s.n0, s.n1) s.p
    w'.w0 = newWeightSpec s.n0 s.p n.1 ∧ w'.w1 = newWeightSpec s.n1 s.p n.2 ∧
      w'.mixRate = mixRateSpec w'.w0 w'.w1 := by
  obtain ⟨v0, v1, v2, v3⟩ := hs
  obtain ⟨⟨m0, m0'⟩, ⟨m1, m1'⟩⟩ := normalize_bounds w.w0 w.w1 (by omega) (by omega) h2 h3
  obtain ⟨e0, x1, x2⟩ := newWeight_eq s.n0 s.p _ v0.1 v0.2 v2 v3 m0 m0'
  obtain ⟨e1, y1, y2⟩ := newWeight_eq s.n1 s.p _ v1.1 v1.2 v2 v3 m1 m1'
  exact ⟨e0, e1, (normWeight_eq _ _ x1 y1 x2 y2).1⟩

example : ((Weights.new.update (10000, 200) 600).update (10, 30000) 500).mixRate = 3968 := by decide +kernel
example : Step.Valid ⟨10000, 200, 600⟩ := by unfold Step.Valid; decide

/-! ### Speeds in the stream (C33) -/

/-- Round trip of a non-negative speed through the stream byte, `-1` for failure. -/
def through (x : Nat) : Int := (u8ToSpeed (speedToU8 x)).getD (-1)

/-- Kernel check over an interval: each value decodes to at most itself, monotonically. -/
def speedsOk : Nat → Nat → Bool
  | 0, _ => true
  | n + 1, x => decide (0 ≤ through x) && decide (through x ≤ x) &&
      decide (through x ≤ through (x + 1)) && speedsOk n (x + 1)

theorem speedsOk_spec (n x j : Nat) (h : speedsOk n x = true) (hj : j < n) :
    0 ≤ through (x + j) ∧ through (x + j) ≤ (x + j : Nat) ∧ through (x + j) ≤ through (x + j + 1) := by
  induction n generalizing x j with
  | zero => omega
  | succ n ih =>
    simp only [speedsOk, Bool.and_eq_true, decide_eq_true_eq] at h
    cases j with
    | zero => exact ⟨h.1.1.1, h.1.1.2, h.1.2⟩
    | succ j =>
      have := ih (x + 1) j h.2 (by omega)
      rw [show x + (j + 1) = x + 1 + j by omega]
      exact this

theorem speedsOk_all : speedsOk 12287 0 = true := by decide +kernel

theorem through_mono (x y : Nat) (hxy : x ≤ y) (hy : y < 12288) : through x ≤ through y := by
  induction y with
  | zero => have : x = 0 := by omega
            subst this; exact le_refl _
  | succ y ih =>
    by_cases h : x = y + 1
    · subst h; exact le_refl _
    · have h1 := ih (by omega) (by omega)
      have h2 := (speedsOk_spec _ 0 y speedsOk_all (by omega)).2.2
      simp only [Nat.zero_add] at h2
      omega

theorem codes_fixed : ∀ d : Fin 256, ∀ z ∈ u8ToSpeed d.val, 0 ≤ z → z < 12288 →
    through z.toNat = z := by decide +kernel

/-- C33: every speed value below 12288 written to the stream is read back as the largest value not
above it that any stream byte can express. -/
theorem speed_nearest_partial (x : Nat) (hx : x < 12288) :
    ∃ y : Int, u8ToSpeed (speedToU8 x) = some y ∧ 0 ≤ y ∧ y ≤ x ∧
      ∀ d z, d < 256 → u8ToSpeed d = some z → z ≤ x → z ≤ y := by
  have hb : 0 ≤ through x ∧ through x ≤ x := by
    by_cases h : x < 12287
    · have := speedsOk_spec _ 0 x speedsOk_all h
      simp only [Nat.zero_add] at this
      exact ⟨this.1, this.2.1⟩
    · have : x = 12287 := by omega
      subst this; decide +kernel
  have hy : u8ToSpeed (speedToU8 x) = some (through x) := by
    unfold through at hb ⊢
    cases h : u8ToSpeed (speedToU8 x) with
    | none => rw [h] at hb; simp at hb
    | some v => rfl
  refine ⟨through x, hy, hb.1, hb.2, fun d z hd hz hzx => ?_⟩
  by_cases h0 : 0 ≤ z
  · have h1 := codes_fixed ⟨d, hd⟩ z hz h0 (by omega)
    rw [← h1]
    exact through_mono _ _ (by omega) hx
  · omega

/-- C33: increments and limits of every built-in speed survive exactly. -/
theorem builtin_speeds_exact : ∀ sp ∈ Cdf.builtinSpeeds,
    u8ToSpeed (speedToU8 sp.inc) = some sp.inc ∧ u8ToSpeed (speedToU8 sp.lim) = some sp.lim := by
  decide +kernel

/-- C33, the full claim fails from 12288 on, a limit the option parser accepts: it is written as a
byte that the reader cannot decode (shift overflow). -/
theorem speed_12288_lost : speedToU8 12288 = 252 ∧ u8ToSpeed (speedToU8 12288) = none := by
  decide +kernel

/-- Bytes of a stream can decode to negative speeds. -/
theorem stream_speed_negative : u8ToSpeed 116 = some (-4096) := by decide +kernel

/-- A stream can express a speed that breaks the distribution: byte pair (124, 120). -/
theorem stream_speed_breaks :
    ∃ inc lim, u8ToSpeed 124 = some inc ∧ u8ToSpeed 120 = some lim ∧
      ¬ Cdf.StrictlyIncreasing (Cdf.adapt [(0, ⟨inc, lim⟩), (0, ⟨inc, lim⟩), (15, ⟨inc, lim⟩)]) := by
  refine ⟨16384, 16384, by decide +kernel, by decide +kernel, ?_⟩
  rintro ⟨-, h⟩
  have := h 14 15 (by decide)
  revert this
  decide +kernel

example : u8ToSpeed (speedToU8 1000) = some 960 := by decide +kernel

end Divans.Weights
