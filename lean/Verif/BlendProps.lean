import Verif.Blend
import Verif.CdfProps
import Verif.AnsProps
import Mathlib.Tactic.Linarith
import Mathlib.Tactic.IntervalCases

/-!
# C76 and C77: the distribution of builds with the feature `blend`
-/

namespace Divans.Blend
open Divans.Num
open Divans.Cdf (Cdf Range SlotsExact)

/-! ## Lemmas: one step -/

/-- Not negative, not decreasing, and at least 32 left for the uniform part. -/
structure Ok (c : Cdf) : Prop where
  nonneg : ∀ i, 0 ≤ c i
  mono : ∀ i j : Fin 16, i ≤ j → c i ≤ c j
  top : c 15 ≤ 32735

theorem Ok.le (h : Ok c) (i : Fin 16) : c i ≤ 32735 := (h.mono i 15 (by omega)).trans h.top

/-- The last entry of a mixture. -/
def level (x y m k : Int) : Int := (y * m + (x * (32768 - m) + k * 2048)) / 32768

theorem level_mono {x y x' y' m k : Int} (hx : x ≤ x') (hy : y ≤ y') (h0 : 0 ≤ m) (h1 : m ≤ 32768) :
    level x y m k ≤ level x' y' m k := by
  unfold level
  refine Int.ediv_le_ediv (by norm_num) ?_
  have a := Int.mul_le_mul_of_nonneg_right hy h0
  have b := Int.mul_le_mul_of_nonneg_right hx (show 0 ≤ 32768 - m by omega)
  omega

theorem level_nonneg {x y m k : Int} (hx : 0 ≤ x) (hy : 0 ≤ y) (h0 : 0 ≤ m) (h1 : m ≤ 32768) (hk : 0 ≤ k) : 0 ≤ level x y m k := by
  unfold level
  refine Int.ediv_nonneg ?_ (by norm_num)
  have a := Int.mul_nonneg hy h0
  have b := Int.mul_nonneg hx (show 0 ≤ 32768 - m by omega)
  omega

theorem level_le {x y m k B : Int} (hx : x ≤ B) (hy : y ≤ B) (h0 : 0 ≤ m) (h1 : m ≤ 32768) (hk : k ≤ 15) :
    level x y m k ≤ B := by
  refine (level_mono hx hy h0 h1).trans ?_
  unfold level
  have : B * m + (B * (32768 - m) + k * 2048) = 32768 * B + k * 2048 := by ring
  rw [this]
  omega

theorem mulBlend_eq {a b : Cdf} {m k : Int} (ha0 : ∀ i, 0 ≤ a i) (hb0 : ∀ i, 0 ≤ b i) (ha : ∀ i, a i ≤ 32751) (hb : ∀ i, b i ≤ 32751)
    (h0 : 0 ≤ m) (h1 : m ≤ 32768) (hk0 : 0 ≤ k) (hk : k ≤ 15) (i : Fin 16) :
    mulBlend a b m (k * 2 ^ 11) i = level (a i) (b i) m k := by
  have e : (b i * m + (a i * (2 ^ 15 - m) + k * 2 ^ 11)) >>> 15 = level (a i) (b i) m k := by
    rw [Int.shiftRight_eq_div_pow]
    unfold level
    norm_num
  have l1 := level_nonneg (k := k) (ha0 i) (hb0 i) h0 h1 hk0
  have l2 := level_le (ha i) (hb i) h0 h1 hk
  unfold mulBlend
  rw [e, i16_id _ (by omega) (by omega)]

/-- Raised by a half when there is room. -/
def raise (t x : Int) : Int := if t < 32751 - t / 2 then x + x / 2 else x

/-- One step of mixing. -/
theorem internal_eq {s : St} {b : Cdf} {m : Int} (ha0 : ∀ i, 0 ≤ s.cdf i) (hb0 : ∀ i, 0 ≤ b i) (ha : ∀ i, s.cdf i ≤ 32751)
    (hb : ∀ i, b i ≤ 32751) (hma : ∀ i j : Fin 16, i ≤ j → s.cdf i ≤ s.cdf j) (hmb : ∀ i j : Fin 16, i ≤ j → b i ≤ b j)
    (h0 : 0 ≤ m) (h1 : m ≤ 32768) :
    s.blendInternal b m = { s with cdf := fun i => raise (level (s.cdf 15) (b 15) m (s.count % 16)) (level (s.cdf i) (b i) m (s.count % 16)) } := by
  have hk0 : 0 ≤ s.count % 16 := by omega
  have hk : s.count % 16 ≤ 15 := by omega
  have e : ∀ i, mulBlend s.cdf b m ((s.count % 16) * 2 ^ 11) i = level (s.cdf i) (b i) m (s.count % 16) :=
    mulBlend_eq ha0 hb0 ha hb h0 h1 hk0 hk
  have l0 : ∀ i, 0 ≤ level (s.cdf i) (b i) m (s.count % 16) := fun i => level_nonneg (ha0 i) (hb0 i) h0 h1 hk0
  have l1 : ∀ i, level (s.cdf i) (b i) m (s.count % 16) ≤ 32751 := fun i => level_le (ha i) (hb i) h0 h1 hk
  have l2 : ∀ i, level (s.cdf i) (b i) m (s.count % 16) ≤ level (s.cdf 15) (b 15) m (s.count % 16) :=
    fun i => level_mono (hma i 15 (by omega)) (hmb i 15 (by omega)) h0 h1
  unfold St.blendInternal
  simp only [e, Int.shiftRight_eq_div_pow]
  have t0 := l0 15
  have t1 := l1 15
  rw [i16_id _ (by unfold cdfMax; omega) (by unfold cdfMax; omega)]
  unfold raise
  by_cases h : level (s.cdf 15) (b 15) m (s.count % 16) < 32751 - level (s.cdf 15) (b 15) m (s.count % 16) / 2
  · rw [if_pos (by unfold cdfMax; omega)]
    congr 1
    funext i
    have := l0 i
    have := l2 i
    rw [if_pos h, i16_id _ (by omega) (by omega)]
    norm_num
  · rw [if_neg (by unfold cdfMax; omega)]
    congr 1
    funext i
    rw [if_neg h]
    exact e i

theorem raise_mono {t x y : Int} (h : x ≤ y) : raise t x ≤ raise t y := by
  unfold raise
  split <;> omega

theorem raise_nonneg {t x : Int} (h : 0 ≤ x) : 0 ≤ raise t x := by
  unfold raise
  split <;> omega

theorem lut_nonneg (sym : Nat) (i : Fin 16) : 0 ≤ toBlendLut sym i := by
  unfold toBlendLut cdfMax
  split <;> omega

theorem lut_le (sym : Nat) (i : Fin 16) : toBlendLut sym i ≤ 32751 := by
  unfold toBlendLut cdfMax
  split <;> omega

theorem lut_mono (sym : Nat) (i j : Fin 16) (h : i ≤ j) : toBlendLut sym i ≤ toBlendLut sym j := by
  have : i.val ≤ j.val := h
  unfold toBlendLut cdfMax
  split <;> split <;> omega

theorem lut_top {sym : Nat} (h : sym < 16) : toBlendLut sym 15 = 32751 := by
  unfold toBlendLut cdfMax
  rw [if_pos (by show sym ≤ 15; omega)]
  norm_num

/-! ## Lemmas: the last entry does not depend on the symbols -/

/-- The last entry and the rate after some symbols, whichever. -/
def path : Nat → Int × Int
  | 0 => (0, 1536)
  | n + 1 =>
    let p := path n
    (raise (level p.1 32751 p.2 (((n : Int) + 1) % 16)) (level p.1 32751 p.2 (((n : Int) + 1) % 16)), p.2 - p.2 / 128)

/-- The same, as a loop that checks the bounds. -/
def walk : Nat → Nat → Int × Int → Option (Int × Int)
  | 0, _, p => some p
  | k + 1, n, p =>
    if 0 ≤ p.1 ∧ p.1 ≤ 32735 ∧ 0 ≤ p.2 ∧ p.2 ≤ 1536 ∧ (5 ≤ n → 21834 ≤ p.1) then
      walk k (n + 1) (raise (level p.1 32751 p.2 (((n : Int) + 1) % 16)) (level p.1 32751 p.2 (((n : Int) + 1) % 16)), p.2 - p.2 / 128)
    else none

theorem walk_spec : ∀ (k n : Nat) (q : Int × Int), walk k n (path n) = some q →
    q = path (n + k) ∧ ∀ j, j < k → 0 ≤ (path (n + j)).1 ∧ (path (n + j)).1 ≤ 32735 ∧ 0 ≤ (path (n + j)).2 ∧ (path (n + j)).2 ≤ 1536 ∧
      (5 ≤ n + j → 21834 ≤ (path (n + j)).1) := by
  intro k
  induction k with
  | zero =>
    intro n q h
    simp only [walk, Option.some.injEq] at h
    exact ⟨h.symm, fun j hj => by omega⟩
  | succ k ih =>
    intro n q h
    rw [walk] at h
    by_cases hc : 0 ≤ (path n).1 ∧ (path n).1 ≤ 32735 ∧ 0 ≤ (path n).2 ∧ (path n).2 ≤ 1536 ∧ (5 ≤ n → 21834 ≤ (path n).1)
    · rw [if_pos hc] at h
      obtain ⟨h1, h2⟩ := ih (n + 1) q h
      refine ⟨by rw [h1]; congr 1; omega, fun j hj => ?_⟩
      cases j with
      | zero => exact hc
      | succ j =>
        have := h2 j (by omega)
        rwa [show n + 1 + j = n + (j + 1) by omega] at this
    · rw [if_neg hc] at h
      cases h

theorem walk_start : ∃ x, walk 700 0 (0, 1536) = some (x, 127) ∧ 21834 ≤ x ∧ x ≤ 32735 := by
  refine ⟨(((walk 700 0 (0, 1536)).getD (0, 0)).1), ?_⟩
  decide +kernel

theorem path_bounds (n : Nat) : 0 ≤ (path n).1 ∧ (path n).1 ≤ 32735 ∧ 0 ≤ (path n).2 ∧ (path n).2 ≤ 1536 ∧
    (5 ≤ n → 21834 ≤ (path n).1) := by
  obtain ⟨x, h1, h2, h3⟩ := walk_start
  obtain ⟨e, hs⟩ := walk_spec 700 0 _ h1
  have late : ∀ k, (path (700 + k)).2 = 127 ∧ 21834 ≤ (path (700 + k)).1 ∧ (path (700 + k)).1 ≤ 32735 := by
    intro k
    induction k with
    | zero =>
      rw [Nat.zero_add] at e
      rw [Nat.add_zero, ← e]
      exact ⟨rfl, h2, h3⟩
    | succ k ih =>
      obtain ⟨i1, i2, i3⟩ := ih
      rw [← Nat.add_assoc, path]
      simp only
      rw [i1]
      generalize (path (700 + k)).1 = x at *
      have : 21834 ≤ level x 32751 127 ((((700 + k : Nat) : Int) + 1) % 16) ∧ level x 32751 127 ((((700 + k : Nat) : Int) + 1) % 16) ≤ 32735 := by
        unfold level
        omega
      refine ⟨by norm_num, ?_⟩
      unfold raise
      split <;> omega
  by_cases h : n < 700
  · have := hs n h
    rwa [Nat.zero_add] at this
  · have := late (n - 700)
    rw [show 700 + (n - 700) = n by omega] at this
    omega

/-! ## Lemmas: histories -/

theorem blend_eq {s : St} (h : Ok s.cdf) (hm0 : 0 ≤ s.mixRate) (hm : s.mixRate ≤ 1536) (sym : Nat) :
    s.blend sym = ⟨fun i => raise (level (s.cdf 15) (toBlendLut sym 15) s.mixRate (i32 (s.count + 1) % 16))
      (level (s.cdf i) (toBlendLut sym i) s.mixRate (i32 (s.count + 1) % 16)), s.mixRate - s.mixRate / 128, i32 (s.count + 1)⟩ := by
  unfold St.blend
  simp only
  rw [internal_eq (s := { s with count := i32 (s.count + 1) }) h.nonneg (lut_nonneg sym) (fun i => (h.le i).trans (by norm_num))
    (lut_le sym) h.mono (lut_mono sym) hm0 (by show s.mixRate ≤ 32768; omega)]
  simp only [Int.shiftRight_eq_div_pow]
  norm_num

theorem learnt_snoc (hist : List Nat) (n : Nat) : learnt (hist ++ [n]) = (learnt hist).blend n := by
  simp [learnt]

theorem learnt_spec (hist : List Nat) (h : ∀ n ∈ hist, n < 16) : Ok (learnt hist).cdf ∧
    ((learnt hist).cdf 15, (learnt hist).mixRate) = path hist.length ∧ (learnt hist).count % 16 = (hist.length : Int) % 16 := by
  induction hist using List.reverseRecOn with
  | nil => exact ⟨⟨fun i => by simp [learnt, St.default], fun i j _ => by simp [learnt, St.default], by simp [learnt, St.default]⟩,
      by simp [learnt, St.default, path], by simp [learnt, St.default]⟩
  | append_singleton hist n ih =>
    obtain ⟨i1, i2, i3⟩ := ih fun x hx => h x (by simp [hx])
    have b := path_bounds hist.length
    have b' := path_bounds (hist.length + 1)
    rw [← i2] at b
    simp only at b
    rw [learnt_snoc, blend_eq i1 b.2.2.1 b.2.2.2.1]
    have hk : i32 ((learnt hist).count + 1) % 16 = ((hist.length : Int) + 1) % 16 := by
      unfold i32
      omega
    have hp : path (hist.length + 1) = (raise (level ((learnt hist).cdf 15) 32751 (learnt hist).mixRate (((hist.length : Int) + 1) % 16))
        (level ((learnt hist).cdf 15) 32751 (learnt hist).mixRate (((hist.length : Int) + 1) % 16)),
        (learnt hist).mixRate - (learnt hist).mixRate / 128) := by
      rw [path]
      simp only [← i2]
    rw [hp] at b'
    simp only at b'
    simp only [hk, lut_top (h n (by simp))]
    refine ⟨⟨fun i => ?_, fun i j hij => ?_, ?_⟩, ?_, ?_⟩
    · exact raise_nonneg (level_nonneg (i1.nonneg i) (lut_nonneg n i) b.2.2.1 (by omega) (by omega))
    · exact raise_mono (level_mono (i1.mono i j hij) (lut_mono n i j hij) b.2.2.1 (by omega))
    · simp only [lut_top (h n (by simp))]
      exact b'.2.1
    · rw [List.length_append, List.length_singleton, hp]
    · rw [List.length_append, List.length_singleton]
      push_cast
      rfl

/-! ## Lemmas: slots -/

/-- The cumulative count of a symbol. -/
theorem get_eq {c : Cdf} (h : Ok c) {s : Nat} (hs : s < 16) :
    get c s = c ⟨s, hs⟩ + (32767 - c 15) * ((s : Int) + 1) / 16 := by
  have t0 := h.nonneg 15
  have t1 := h.top
  unfold get
  by_cases h15 : s = 15
  · subst h15
    rw [if_pos rfl]
    have : (⟨15, hs⟩ : Fin 16) = 15 := rfl
    rw [this]
    unfold cdfMax
    push_cast
    omega
  · rw [if_neg h15]
    simp only
    have e : Cdf.get c s = c ⟨s, hs⟩ := by simp [Cdf.get, Nat.mod_eq_of_lt hs]
    have a0 := h.nonneg ⟨s, hs⟩
    have a1 := h.mono ⟨s, hs⟩ 15 (by show s ≤ 15; omega)
    have p0 : 0 ≤ (32767 - c 15) * ((s : Int) + 1) := Int.mul_nonneg (by omega) (by omega)
    have p1 : (32767 - c 15) * ((s : Int) + 1) ≤ (32767 - c 15) * 15 := Int.mul_le_mul_of_nonneg_left (by omega) (by omega)
    rw [e, Int.shiftRight_eq_div_pow, i16_id (cdfMax - c 15) (by unfold cdfMax; omega) (by unfold cdfMax; omega)]
    unfold cdfMax
    have q0 : 0 ≤ (32767 - c 15) * ((s : Int) + 1) / 16 := by omega
    have q1 : (32767 - c 15) * ((s : Int) + 1) / 16 ≤ 32767 - c 15 := by omega
    norm_num
    rw [i16_id ((32767 - c 15) * ((s : Int) + 1) / 16) (by omega) (by omega), i16_id _ (by omega) (by omega)]

/-- What is needed of cumulative counts: steps of at least 2, the last is the greatest number. -/
structure Steps (g : Nat → Int) : Prop where
  first : 2 ≤ g 0
  step : ∀ s, s < 15 → g s + 2 ≤ g (s + 1)
  last : g 15 = 32767

theorem Ok.steps {c : Cdf} (h : Ok c) : Steps (get c) := by
  have t1 := h.top
  refine ⟨?_, fun s hs => ?_, rfl⟩
  · rw [get_eq h (by omega)]
    have := h.nonneg 0
    show 2 ≤ c 0 + (32767 - c 15) * 1 / 16
    omega
  · rw [get_eq h (by omega), get_eq h (by omega)]
    have := h.mono ⟨s, by omega⟩ ⟨s + 1, by omega⟩ (by show s ≤ s + 1; omega)
    have e : (32767 - c 15) * (((s + 1 : Nat) : Int) + 1) = (32767 - c 15) * ((s : Int) + 1) + (32767 - c 15) := by
      push_cast
      ring
    rw [e]
    omega

theorem Steps.lt {g : Nat → Int} (h : Steps g) : ∀ k s : Nat, s + k ≤ 15 → g s + 2 * (k : Int) ≤ g (s + k) := by
  intro k
  induction k with
  | zero => intro s _; simp
  | succ k ih =>
    intro s hs
    have h1 := ih s (by omega)
    have h2 := h.step (s + k) (by omega)
    rw [show s + (k + 1) = s + k + 1 by omega]
    push_cast
    omega

theorem Steps.mono {g : Nat → Int} (h : Steps g) {s t : Nat} (hst : s ≤ t) (ht : t ≤ 15) : g s ≤ g t := by
  have := h.lt (t - s) s (by omega)
  rw [show s + (t - s) = t by omega] at this
  omega

/-- The count before a symbol. -/
def before (g : Nat → Int) (s : Nat) : Int := if s = 0 then 0 else g (s - 1)

theorem Steps.before {g : Nat → Int} (h : Steps g) {s : Nat} (hs : s < 16) :
    0 ≤ before g s ∧ before g s + 2 ≤ g s ∧ g s ≤ 32767 := by
  have h1 := h.mono (s := s) (t := 15) (by omega) (by omega)
  rw [h.last] at h1
  unfold Blend.before
  by_cases h0 : s = 0
  · subst h0
    have := h.first
    simp
    omega
  · rw [if_neg h0]
    have h2 := h.mono (s := 0) (t := s - 1) (by omega) (by omega)
    have h3 := h.step (s - 1) (by omega)
    rw [show s - 1 + 1 = s by omega] at h3
    have := h.first
    omega

theorem range_eq {c : Cdf} (h : Steps (get c)) {s : Nat} (hs : s < 16) :
    symRange divByMax c s = ⟨before (get c) s + 1, get c s - before (get c) s - 1⟩ := by
  have b := h.before hs
  have d : ∀ v : Int, divByMax (v <<< 15) = v := by
    intro v
    unfold divByMax
    rw [Int.shiftLeft_eq, Int.shiftRight_eq_div_pow]
    norm_num
  unfold symRange
  simp only [d]
  have e : (if s ≠ 0 then get c (s - 1) else 0) = before (get c) s := by
    unfold Blend.before
    by_cases h0 : s = 0
    · simp [h0]
    · simp [h0]
  rw [e, i16_id (before (get c) s) (by omega) (by omega), i16_id (_ + 1) (by omega) (by omega),
    i16_id (get c s - before (get c) s) (by omega) (by omega), i16_id _ (by omega) (by omega)]

theorem firstAbove_eq (g : Nat → Int) (r : Int) : ∀ (n s0 s : Nat), s0 ≤ s → s ≤ s0 + n → (∀ t, s0 ≤ t → t < s → g t ≤ r) →
    (s < s0 + n → r < g s) → firstAbove g r n s0 = s := by
  intro n
  induction n with
  | zero => intro s0 s h1 h2 _ _; rw [firstAbove]; omega
  | succ n ih =>
    intro s0 s h1 h2 h3 h4
    rw [firstAbove]
    by_cases h : r < g s0
    · rw [if_pos h]
      by_contra hne
      have := h3 s0 (by omega) (by omega)
      omega
    · rw [if_neg h]
      have hne : s ≠ s0 := by
        rintro rfl
        exact h (h4 (by omega))
      exact ih (s0 + 1) s (by omega) (by omega) (fun t a b => h3 t (by omega) b) (fun a => h4 (by omega))

theorem lookupSym_eq {c : Cdf} (h : Steps (get c)) {s : Nat} (hs : s < 16) {off : Int} (h1 : before (get c) s + 1 ≤ off)
    (h2 : off < get c s) : lookupSym c off = s := by
  have b := h.before hs
  have e : i16 ((off * cdfMax) >>> 15) = off - 1 := by
    unfold cdfMax
    rw [Int.shiftRight_eq_div_pow]
    have : off * 32767 / 32768 = off - 1 := by omega
    norm_num
    rw [this, i16_id _ (by omega) (by omega)]
  unfold lookupSym
  rw [e]
  refine firstAbove_eq _ _ 15 0 s (by omega) (by omega) (fun t _ ht => ?_) (fun _ => by omega)
  have : before (get c) s = get c (s - 1) := by
    unfold Blend.before
    rw [if_neg (by omega)]
  have := h.mono (s := t) (t := s - 1) (by omega) (by omega)
  omega

theorem toSlot_eq {a b : Int} (ha : 0 ≤ a) (ha2 : a < 65536) (hb : 0 ≤ b) (hb2 : b < 65536) :
    (Range.toSlot ⟨a, b⟩) = ⟨a.toNat, b.toNat⟩ := by
  unfold Cdf.Range.toSlot u16
  simp only
  rw [Int.emod_eq_of_lt ha (by norm_num; exact ha2), Int.emod_eq_of_lt hb (by norm_num; exact hb2)]

theorem slots_of_steps {c : Cdf} (h : Steps (get c)) : SlotsExact (fun s => (symRange divByMax c s).toSlot)
    (fun off => ((lookup divByMax c off).1, (lookup divByMax c off).2.toSlot)) := by
  have slot : ∀ s, s < 16 → (symRange divByMax c s).toSlot = ⟨(before (get c) s + 1).toNat, (get c s - before (get c) s - 1).toNat⟩ := by
    intro s hs
    have b := h.before hs
    rw [range_eq h hs, toSlot_eq (by omega) (by omega) (by omega) (by omega)]
  refine ⟨fun s hs => ?_, fun s t hst ht => ?_, fun s hs off h1 h2 => ?_⟩
  · have b := h.before hs
    simp only [slot s hs, Ans.Slot.Valid]
    omega
  · have b := h.before (s := s) (by omega)
    have b' := h.before ht
    have e : before (get c) t = get c (t - 1) := by unfold Blend.before; rw [if_neg (by omega)]
    have m := h.mono (s := s) (t := t - 1) (by omega) (by omega)
    simp only [slot s (by omega), slot t ht]
    omega
  · have b := h.before hs
    simp only [slot s hs] at h1 h2
    have e := lookupSym_eq h hs (off := off) (by omega) (by omega)
    simp only [lookup, e]
    by_cases h0 : s = 0
    · subst h0
      rw [if_pos rfl]
    · rw [if_neg h0]

/-! ## C76 -/

/-- **C76.**  Whatever symbols a distribution has seen, however many, its slots are not empty, lie apart, and looking up any
offset in a slot gives the symbol and the slot. -/
theorem blend_history_usable (hist : List Nat) (h : ∀ n ∈ hist, n < 16) :
    SlotsExact (fun s => (symRange divByMax (learnt hist).cdf s).toSlot)
      (fun off => ((lookup divByMax (learnt hist).cdf off).1, (lookup divByMax (learnt hist).cdf off).2.toSlot)) :=
  slots_of_steps (learnt_spec hist h).1.steps

theorem models_learnt {κ : Type} [DecidableEq κ] (rule : List Nat → κ) : ∀ (todo past : List Nat) (m : κ → St),
    (∀ n ∈ todo, n < 16) → (∀ k, ∃ hist, (∀ n ∈ hist, n < 16) ∧ m k = learnt hist) →
    ∀ k, ∃ hist, (∀ n ∈ hist, n < 16) ∧ models rule past todo m k = learnt hist := by
  intro todo
  induction todo with
  | nil => intro past m _ h; exact h
  | cons n t ih =>
    intro past m hn h
    rw [models]
    refine ih _ _ (fun x hx => hn x (by simp [hx])) fun k => ?_
    by_cases hk : k = rule past
    · subst hk
      rw [Function.update_self]
      obtain ⟨hist, h1, h2⟩ := h (rule past)
      refine ⟨hist ++ [n], fun x hx => ?_, by rw [h2, learnt_snoc]⟩
      rcases List.mem_append.1 hx with hx | hx
      · exact h1 x hx
      · rw [List.mem_singleton.1 hx]; exact hn n (by simp)
    · rw [Function.update_of_ne hk]
      exact h k

/-- **C76, round trip.**  Both sides choose the distribution for each nibble by the same rule from the nibbles before it, and
blend the nibble into it.  Whatever the rule and the nibbles, however the output of the coder is taken out, and in whatever
pieces it arrives, with anything behind it, the nibbles come back, and exactly the output of the coder is used up. -/
theorem blend_round_trip {κ : Type} [DecidableEq κ] (rule : List Nat → κ) (syms : List Nat) (hsyms : ∀ n ∈ syms, n < 16)
    (ops : List Ans.EncOp)
    (hputs : Ans.putsOf ops = Ans.slotsFrom (fun pre n =>
      (symRange divByMax (models rule [] pre (fun _ => .default) (rule pre)).cdf n).toSlot) [] syms)
    (hclosed : Ans.ClosedOnce ops) (out : List UInt8) (e : Ans.Enc) (hrun : Ans.Enc.init.run ops = some (out, e)) (hdrained : e.q = [])
    (pieces : List (List UInt8)) (tail : List UInt8) (hpieces : pieces.flatten = out ++ tail) :
    ∃ d cur more, Ans.Dec.decode (fun pre off =>
        let r := lookup divByMax (models rule [] pre (fun _ => .default) (rule pre)).cdf off
        (r.1, r.2.toSlot)) syms.length [] Ans.Dec.init [] pieces = some (syms, d, cur, more) ∧ cur ++ more.flatten = tail := by
  refine Ans.ans_round_trip_split _ _ syms ?_ ops hputs hclosed out e hrun hdrained pieces tail hpieces
  intro pre n post hsplit
  obtain ⟨hist, h1, h2⟩ := models_learnt rule pre [] (fun _ => .default) (fun x hx => hsyms x (by rw [hsplit]; simp [hx]))
    (fun _ => ⟨[], by simp, rfl⟩) (rule pre)
  obtain ⟨x1, -, x3⟩ := blend_history_usable hist h1
  dsimp only
  rw [h2]
  have hn := hsyms n (by rw [hsplit]; simp)
  exact ⟨x1 n hn, fun off a b => x3 n hn off a b⟩

/-- The slots of nibbles coded one after the other, and what a receiver finds, with one distribution for all. -/
def slotOf (pre : List Nat) (n : Nat) : Ans.Slot := (symRange divByMax (learnt pre).cdf n).toSlot

/-- What a receiver that divides in the given way finds at an offset. -/
def foundBy (div : Int → Int) (pre : List Nat) (off : Nat) : Nat × Ans.Slot :=
  ((lookup div (learnt pre).cdf off).1, (lookup div (learnt pre).cdf off).2.toSlot)

theorem slotsFrom_valid : ∀ (syms pre : List Nat), (∀ n ∈ pre, n < 16) → (∀ n ∈ syms, n < 16) →
    ∀ sl ∈ Ans.slotsFrom slotOf pre syms, sl.Valid := by
  intro syms
  induction syms with
  | nil => intro pre _ _ sl h; simp [Ans.slotsFrom] at h
  | cons n t ih =>
    intro pre hp hn sl h
    rw [Ans.slotsFrom, List.mem_cons] at h
    rcases h with rfl | h
    · exact (blend_history_usable pre hp).1 n (hn n (by simp))
    · refine ih (pre ++ [n]) (fun x hx => ?_) (fun x hx => hn x (by simp [hx])) sl h
      rcases List.mem_append.1 hx with hx | hx
      · exact hp x hx
      · rw [List.mem_singleton.1 hx]; exact hn n (by simp)

/-- **C76, coding never fails.**  Whatever the nibbles, the coder takes them all and can be closed and emptied. -/
theorem blend_encodes (syms : List Nat) (h : ∀ n ∈ syms, n < 16) :
    ∃ out e, Ans.Enc.init.run (Ans.drainedOps (Ans.slotsFrom slotOf [] syms)) = some (out, e) ∧ e.q = [] := by
  obtain ⟨out, e, h1, h2, -⟩ := Ans.ans_encode_total _ (slotsFrom_valid syms [] (by simp) h)
  exact ⟨out, e, h1, h2⟩

/-- **C76, with `avoid-divide`.**  In builds with this feature too the receiver divides by 32767 where the sender shifts by
15.  Whatever has been learnt, for every offset in the slot of symbol 15 the receiver finds the symbol, and a slot that is
one larger than that of the sender: what it decodes next is wrong. -/
theorem avoid_divide_disagrees (hist : List Nat) (h : ∀ n ∈ hist, n < 16) (off : Nat)
    (h1 : (symRange divByMax (learnt hist).cdf 15).start ≤ off)
    (h2 : (off : Int) < (symRange divByMax (learnt hist).cdf 15).start + (symRange divByMax (learnt hist).cdf 15).freq) :
    lookup divHint (learnt hist).cdf off =
      (15, ⟨(symRange divByMax (learnt hist).cdf 15).start, (symRange divByMax (learnt hist).cdf 15).freq + 1⟩) := by
  have st := (learnt_spec hist h).1.steps
  generalize (learnt hist).cdf = c at *
  have b := st.before (s := 15) (by omega)
  rw [range_eq st (by omega)] at h1 h2 ⊢
  simp only at h1 h2 ⊢
  have e := lookupSym_eq st (s := 15) (by omega) (off := off) (by omega) (by omega)
  have d : ∀ v : Int, 0 ≤ v → v ≤ 32767 → divHint (v <<< 15) = v * 32768 / 32767 := by
    intro v a b
    obtain ⟨n, rfl⟩ : ∃ n : Nat, v = n := ⟨v.toNat, by omega⟩
    unfold divHint cdfMax lookupDivisor
    have hs : ((n : Int) <<< 15) = ((n * 32768 : Nat) : Int) := by
      rw [Int.shiftLeft_eq]
      push_cast
      norm_num
    rw [hs, show (u16 32767).toNat = 32767 by decide, Num.fast_divide_exact 32767 _ (by omega) (by omega) (by omega)]
    push_cast
    rfl
  have e14 : before (get c) 15 = get c 14 := rfl
  have g : get c 15 = 32767 := st.last
  have b14 := st.before (s := 14) (by omega)
  have s14 := st.step 14 (by omega)
  simp only [show 14 + 1 = 15 from rfl] at s14
  simp only [lookup, e]
  rw [if_neg (by omega), e14, g]
  unfold symRange
  simp only [ne_eq, OfNat.ofNat_ne_zero, not_false_eq_true, if_true, Nat.reduceSub, g]
  rw [d 32767 (by omega) (by omega), d (get c 14) (by omega) (by omega)]
  have e1 : get c 14 * 32768 / 32767 = get c 14 := by omega
  have e2 : (32767 * 32768 / 32767 : Int) = 32768 := by norm_num
  rw [e1, e2, i16_id (get c 14) (by omega) (by omega), i16_id (get c 14 + 1) (by omega) (by omega),
    i16_id (32768 - get c 14) (by omega) (by omega), i16_id _ (by omega) (by omega)]
  congr 2
  omega

/-- **C76, with `avoid-divide`, a witness.**  The nibbles 15, 1, 2 come back as 15, 1, 11, and without this feature as they
were. -/
theorem avoid_divide_garbles : ∃ out e, Ans.Enc.init.run (Ans.drainedOps (Ans.slotsFrom slotOf [] [15, 1, 2])) = some (out, e) ∧
    (Ans.Dec.decode (foundBy divHint) 3 [] Ans.Dec.init [] [out]).map (·.1) = some [15, 1, 11] ∧
    (Ans.Dec.decode (foundBy divByMax) 3 [] Ans.Dec.init [] [out]).map (·.1) = some [15, 1, 2] := by
  have h : ((Ans.Enc.init.run (Ans.drainedOps (Ans.slotsFrom slotOf [] [15, 1, 2]))).map fun r =>
      ((Ans.Dec.decode (foundBy divHint) 3 [] Ans.Dec.init [] [r.1]).map (·.1),
        (Ans.Dec.decode (foundBy divByMax) 3 [] Ans.Dec.init [] [r.1]).map (·.1))) =
      some (some [15, 1, 11], some [15, 1, 2]) := by decide +kernel
  cases hr : Ans.Enc.init.run (Ans.drainedOps (Ans.slotsFrom slotOf [] [15, 1, 2])) with
  | none => rw [hr] at h; cases h
  | some r =>
    rw [hr] at h
    simp only [Option.map_some, Option.some.injEq, Prod.mk.injEq] at h
    exact ⟨r.1, r.2, rfl, h.1, h.2⟩

/-- Hypotheses of the theorem before: a distribution that has seen six nibbles, and an offset in the slot of symbol 15. -/
example : (symRange divByMax (learnt [15, 0, 3, 15, 15, 2]).cdf 15).start ≤ (32000 : Nat) ∧
    ((32000 : Nat) : Int) < (symRange divByMax (learnt [15, 0, 3, 15, 15, 2]).cdf 15).start +
      (symRange divByMax (learnt [15, 0, 3, 15, 15, 2]).cdf 15).freq := by decide +kernel

/-- The slots after some nibbles. -/
example : (List.range 16).map (fun s => (symRange divByMax (learnt [3, 3, 7]).cdf s).freq) = [1406, 1407, 1406, 9385, 1406, 1407, 1406, 3675, 1407, 1406, 1407, 1406, 1407, 1406, 1407, 1407] := by decide +kernel

/-! ## C77 -/

/-- **C77.**  Mixing two distributions, whatever they have learnt, with any weight: the slots are as they should be, unless the
last entry of the mixture is one of ten numbers. -/
theorem average_usable_partial (ha hb : List Nat) (h1 : ∀ n ∈ ha, n < 16) (h2 : ∀ n ∈ hb, n < 16) (w : Int) (hw0 : 0 ≤ w)
    (hw : w ≤ 2 ^ 15)
    (hz : (mulBlend (learnt ha).cdf (learnt hb).cdf w (((learnt ha).count % 16) * 2 ^ 11)) 15 < 21824 ∨
      21834 ≤ (mulBlend (learnt ha).cdf (learnt hb).cdf w (((learnt ha).count % 16) * 2 ^ 11)) 15) :
    SlotsExact (fun s => (symRange divByMax ((learnt ha).average (learnt hb) w).cdf s).toSlot)
      (fun off => ((lookup divByMax ((learnt ha).average (learnt hb) w).cdf off).1,
        (lookup divByMax ((learnt ha).average (learnt hb) w).cdf off).2.toSlot)) := by
  have a := (learnt_spec ha h1).1
  have b := (learnt_spec hb h2).1
  have hk0 : 0 ≤ (learnt ha).count % 16 := by omega
  have hk : (learnt ha).count % 16 ≤ 15 := by omega
  have a1 : ∀ i, (learnt ha).cdf i ≤ 32751 := fun i => (a.le i).trans (by norm_num)
  have b1 : ∀ i, (learnt hb).cdf i ≤ 32751 := fun i => (b.le i).trans (by norm_num)
  rw [mulBlend_eq a.nonneg b.nonneg a1 b1 hw0 (by omega) hk0 hk] at hz
  refine slots_of_steps (Ok.steps ?_)
  unfold St.average
  rw [internal_eq a.nonneg b.nonneg a1 b1 a.mono b.mono hw0 (by omega)]
  simp only
  have t0 := level_nonneg (k := (learnt ha).count % 16) (a.nonneg 15) (b.nonneg 15) hw0 (by omega) hk0
  have t1 := level_le a.top b.top hw0 (by omega) hk
  refine ⟨fun i => raise_nonneg (level_nonneg (a.nonneg i) (b.nonneg i) hw0 (by omega) hk0),
    fun i j hij => raise_mono (level_mono (a.mono i j hij) (b.mono i j hij) hw0 (by omega)), ?_⟩
  unfold raise
  split <;> omega

/-- **C77, the negation.**  A distribution that has seen symbol 0 four times and one that has seen it six times, mixed with
the weight that every mixture starts with: symbol 8 has no slot, and the coder fails on it. -/
theorem average_loses_symbol :
    (symRange divByMax ((learnt [0, 0, 0, 0]).average (learnt [0, 0, 0, 0, 0, 0]) (2 ^ 14)).cdf 8).freq = 0 ∧
    Ans.Enc.init.run (Ans.drainedOps
      [(symRange divByMax ((learnt [0, 0, 0, 0]).average (learnt [0, 0, 0, 0, 0, 0]) (2 ^ 14)).cdf 8).toSlot]) = none := by
  refine ⟨by decide +kernel, ?_⟩
  have h : (Ans.Enc.init.run (Ans.drainedOps
      [(symRange divByMax ((learnt [0, 0, 0, 0]).average (learnt [0, 0, 0, 0, 0, 0]) (2 ^ 14)).cdf 8).toSlot])).isNone = true := by
    decide +kernel
  exact Option.isNone_iff_eq_none.1 h

/-- The hypothesis of the theorem before holds for most histories. -/
example : 21834 ≤ (mulBlend (learnt [1, 2, 3, 4, 5, 6, 7]).cdf (learnt [0, 0, 0, 0, 0, 0]).cdf (2 ^ 14)
    (((learnt [1, 2, 3, 4, 5, 6, 7]).count % 16) * 2 ^ 11)) 15 := by decide +kernel

/-- **C77, the weight.**  The weight is taken for the other distribution: with weight 1 the mixture is the second one in this
build, and the first one in the default build, where the weights are learnt for the first. -/
theorem average_weight_reversed (ha hb : List Nat) (h1 : ∀ n ∈ ha, n < 16) (h2 : ∀ n ∈ hb, n < 16)
    (hl : 5 ≤ hb.length) (a b : Cdf) :
    ((learnt ha).average (learnt hb) (2 ^ 15)).cdf = (learnt hb).cdf ∧
      (Cdf.average a b (2 ^ 15)) = fun i => i16 ((a i * Cdf.max b) >>> (17 - min (Cdf.clz32 (Cdf.max a * Cdf.max b)) 17)) := by
  refine ⟨?_, ?_⟩
  · have a := (learnt_spec ha h1).1
    obtain ⟨b, p, -⟩ := learnt_spec hb h2
    have a1 : ∀ i, (learnt ha).cdf i ≤ 32751 := fun i => (a.le i).trans (by norm_num)
    have b1 : ∀ i, (learnt hb).cdf i ≤ 32751 := fun i => (b.le i).trans (by norm_num)
    have low := (path_bounds hb.length).2.2.2.2 hl
    rw [← p] at low
    simp only at low
    have hk0 : 0 ≤ (learnt ha).count % 16 := by omega
    have hk : (learnt ha).count % 16 ≤ 15 := by omega
    have l : ∀ x y : Int, level x y (2 ^ 15) ((learnt ha).count % 16) = y := by
      intro x y
      unfold level
      norm_num
      omega
    unfold St.average
    rw [internal_eq a.nonneg b.nonneg a1 b1 a.mono b.mono (by norm_num) (by norm_num)]
    simp only [l]
    funext i
    unfold raise
    rw [if_neg (by omega)]
  · funext i
    unfold Cdf.average
    simp only [sub_self, mul_zero, add_zero, Int.shiftRight_eq_div_pow]
    congr 1
    omega

end Divans.Blend
