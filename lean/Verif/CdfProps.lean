import Verif.CdfLemmas
import Mathlib.Data.List.Induction

/-!
Property theorems for the 16-symbol distributions (C05-C07, C32 first half).

Specification vocabulary:
* `StrictlyIncreasing c` - the sixteen cumulative counts are positive and strictly increasing;
* `SlotsExact slot lookup` - the sixteen slots are valid coder slots, pairwise disjoint (in order),
  and looking up any offset of a slot returns its symbol and that slot;
* `SafeSpeed sp` - increment in `[0, 5445]`, limit at most `2^14`.
-/
namespace Divans.Cdf
open Divans.Num

/-- Counts positive and strictly increasing. -/
def StrictlyIncreasing (c : Cdf) : Prop := 0 < c 0 ∧ ∀ i j : Fin 16, i < j → c i < c j

/-- The slots of the sixteen symbols partition (part of) the interval and the lookup finds them. -/
def SlotsExact (slot : Nat → Ans.Slot) (lookup : Int → Nat × Ans.Slot) : Prop :=
  (∀ s, s < 16 → (slot s).Valid) ∧
  (∀ s t, s < t → t < 16 → (slot s).start + (slot s).freq ≤ (slot t).start) ∧
  (∀ s, s < 16 → ∀ off : Nat, (slot s).start ≤ off → off < (slot s).start + (slot s).freq →
    lookup off = (s, slot s))

theorem usable_of_increasing (c : Cdf) (h : StrictlyIncreasing c) (hm : max c ≤ 2 ^ 14) :
    Usable c := by
  obtain ⟨h0, hlt⟩ := h
  refine ⟨by omega, fun s hs => ?_⟩
  have hp : 1 ≤ pdf c s := by
    unfold pdf
    by_cases hz : s = 0
    · subst hz
      simp [get] at *
      omega
    · rw [if_neg hz]
      have := hlt ⟨s - 1, by omega⟩ ⟨s, hs⟩ (by simp [Fin.lt_def]; omega)
      have e1 : get c s = c ⟨s, hs⟩ := by simp [get, Nat.mod_eq_of_lt hs]
      have e2 : get c (s - 1) = c ⟨s - 1, by omega⟩ := by
        simp [get, Nat.mod_eq_of_lt (show s - 1 < 16 by omega)]
      omega
  exact ⟨hp, by omega⟩

theorem slotsExact_of_usable (div : Int → Int) (c : Cdf) (h : Usable c)
    (hd : ExactDiv div (max c)) :
    SlotsExact (fun s => (symRange div c s).toSlot)
      (fun off => ((lookup div c off).1, (lookup div c off).2.toSlot)) := by
  refine ⟨fun s hs => ?_, fun s t hst ht => ?_, fun s hs off h1 h2 => ?_⟩
  · have := toSlot_eq c h s hs
    have g1 := bound_gap c h s hs
    have g2 := lower_nonneg c h s hs
    have g3 := bound_le c h s hs
    simp only [symRange_eq div c h hd s hs, Ans.Slot.Valid]
    omega
  · have e1 := toSlot_eq c h s (by omega)
    have e2 := toSlot_eq c h t ht
    have g1 := bound_mono c h s (t - 1) (by omega) (by omega)
    have g2 : lower c t = bound c (t - 1) := by simp [lower, show t ≠ 0 by omega]
    simp only [symRange_eq div c h hd s (by omega), symRange_eq div c h hd t ht]
    omega
  · simp only [symRange_eq div c h hd s hs] at h1 h2 ⊢
    have e1 := toSlot_eq c h s hs
    have hl : lookupSym c off = s := lookupSym_eq c h s hs off (by omega) (by omega)
    simp only [lookup, hl, symRange_eq div c h hd s hs]

/-- C05: for every strictly increasing distribution with total at most `2^14`, slots and lookups are
exact, for the plain distribution type. -/
theorem cdf_slots_exact (c : Cdf) (h : StrictlyIncreasing c) (hm : max c ≤ 2 ^ 14) :
    SlotsExact (fun s => (symRange (divByMax c) c s).toSlot)
      (fun off => ((lookup (divByMax c) c off).1, (lookup (divByMax c) c off).2.toSlot)) := by
  have hu := usable_of_increasing c h hm
  exact slotsExact_of_usable _ c hu (exactDiv_plain c (max_pos c hu))

/-- C05 for the production type. -/
theorem opt_slots_exact (c : Cdf) (h : StrictlyIncreasing c) (hm : max c ≤ 2 ^ 14) :
    SlotsExact (fun s => ((Opt.new c).symRange s).toSlot)
      (fun off => (((Opt.new c).lookup off).1, ((Opt.new c).lookup off).2.toSlot)) := by
  have hu := usable_of_increasing c h hm
  exact slotsExact_of_usable _ c hu (exactDiv_opt c (max_pos c hu) hu.1)

theorem default_increasing : StrictlyIncreasing default ∧ max default ≤ 2 ^ 14 := by
  refine ⟨⟨by decide, fun i j hij => ?_⟩, by decide⟩
  simp only [default]
  have : i.val < j.val := hij
  omega

example : StrictlyIncreasing default ∧ max default ≤ 2 ^ 14 := default_increasing
example : symRange (divByMax default) default 3 = ⟨6145, 2047⟩ := by decide +kernel

/-- Speeds for which the 16-bit counters are safe. -/
def SafeSpeed (sp : Speed) : Prop := 0 ≤ sp.inc ∧ sp.inc ≤ 5445 ∧ sp.lim ≤ 2 ^ 14

/-- The update in unbounded integer arithmetic (specification): add `inc` to the count of `sym`
and, if the total reaches the limit, scale each cumulative count (plus its rank) by 3/4, rounding
up. -/
def blendSpec (c : Cdf) (sym : Nat) (sp : Speed) : Cdf :=
  let c1 : Cdf := fun i => c i + if sym ≤ i.val then sp.inc else 0
  if sp.lim ≤ c1 15 then fun i => (3 * (c1 i + i.val + 1) + 3) / 4 else c1

/-- Every symbol has count at least 3 and the total is at most `2^14`: the invariant of adaptation. -/
def Healthy (c : Cdf) : Prop := max c ≤ 2 ^ 14 ∧ ∀ s, s < 16 → 3 ≤ pdf c s

theorem Healthy.get_bounds {c : Cdf} (h : Healthy c) (s : Nat) (hs : s < 16) :
    3 ≤ get c s ∧ get c s ≤ 2 ^ 14 := by
  have hp : ∀ s, s < 16 → 1 ≤ pdf c s := fun s hs => by have := h.2 s hs; omega
  have h1 := get_mono c hp 0 s (by omega) hs
  have h2 := get_mono c hp s 15 (by omega) (by omega)
  have h3 := h.2 0 (by omega)
  have h4 := h.1
  rw [get_max] at h2
  simp [pdf] at h3
  omega

theorem get_eq (c : Cdf) (i : Fin 16) : get c i.val = c i := by
  simp [get, Nat.mod_eq_of_lt i.2]

theorem Healthy.bounds {c : Cdf} (h : Healthy c) (i : Fin 16) : 3 ≤ c i ∧ c i ≤ 2 ^ 14 := by
  have := h.get_bounds i.val i.2
  rwa [get_eq] at this

theorem blend_eq_spec (c : Cdf) (h : Healthy c) (sym : Nat) (sp : Speed) (hs : SafeSpeed sp) :
    blend c sym sp = blendSpec c sym sp := by
  obtain ⟨s1, s2, s3⟩ := hs
  have hc1 : ∀ i : Fin 16, (if sym ≤ i.val then i16 (c i + sp.inc) else c i) =
      c i + if sym ≤ i.val then sp.inc else 0 := by
    intro i
    have := h.bounds i
    split_ifs
    · exact i16_id _ (by omega) (by omega)
    · omega
  unfold blend blendSpec
  simp only [hc1, max, ge_iff_le]
  by_cases hl : sp.lim ≤ c 15 + if sym ≤ (15 : Fin 16).val then sp.inc else 0
  · rw [if_pos hl, if_pos hl]
    funext i
    have hb := h.bounds i
    have hi := i.2
    have hx : ∃ x : Int, (c i + if sym ≤ i.val then sp.inc else 0) = x ∧ 3 ≤ x ∧ x ≤ 21829 :=
      ⟨_, rfl, by split_ifs <;> omega, by split_ifs <;> omega⟩
    obtain ⟨x, hx, hx1, hx2⟩ := hx
    rw [hx]
    rw [i16_id (x + (i.val + 1 : Int)) (by omega) (by omega)]
    rw [Int.shiftRight_eq_div_pow]
    rw [i16_id _ (by omega) (by omega)]
    omega
  · rw [if_neg hl, if_neg hl]

theorem healthy_iff (c : Cdf) : Healthy c ↔
    c 15 ≤ 2 ^ 14 ∧ 3 ≤ c 0 ∧ ∀ (k : Nat) (hk : k + 1 < 16), c ⟨k, by omega⟩ + 3 ≤ c ⟨k + 1, hk⟩ := by
  unfold Healthy pdf max
  have e : ∀ (s : Nat) (hs : s < 16), get c s = c ⟨s, hs⟩ := fun s hs => get_eq c ⟨s, hs⟩
  constructor
  · rintro ⟨h1, h2⟩
    refine ⟨h1, ?_, fun k hk => ?_⟩
    · have := h2 0 (by omega)
      rw [e 0 (by omega)] at this
      simpa using this
    · have := h2 (k + 1) hk
      rw [e (k + 1) hk, if_neg (by omega), Nat.add_sub_cancel, e k (by omega)] at this
      omega
  · rintro ⟨h1, h2, h3⟩
    refine ⟨h1, fun s hs => ?_⟩
    cases s with
    | zero => rw [e 0 (by omega)]; simpa using h2
    | succ k =>
      have := h3 k hs
      rw [e (k + 1) hs, if_neg (by omega), Nat.add_sub_cancel, e k (by omega)]
      omega

theorem healthy_blend (c : Cdf) (h : Healthy c) (sym : Nat) (sp : Speed) (hs : SafeSpeed sp) :
    Healthy (blend c sym sp) := by
  rw [blend_eq_spec c h sym sp hs]
  obtain ⟨s1, s2, s3⟩ := hs
  rw [healthy_iff] at h ⊢
  obtain ⟨h1, h2, h3⟩ := h
  unfold blendSpec
  dsimp only
  split_ifs with hl
  all_goals
    refine ⟨?_, ?_, fun k hk => ?_⟩
    · simp at *; omega
    · simp at *; split_ifs <;> omega
    · have := h3 k hk
      dsimp only
      push_cast
      split_ifs <;> omega

theorem healthy_default : Healthy default := by
  rw [healthy_iff]
  refine ⟨by decide, by decide, fun k hk => ?_⟩
  simp only [default]
  omega

theorem Healthy.increasing {c : Cdf} (h : Healthy c) : StrictlyIncreasing c ∧ max c ≤ 2 ^ 14 := by
  refine ⟨⟨by have := h.bounds 0; omega, fun i j hij => ?_⟩, h.1⟩
  have hp : ∀ s, s < 16 → 1 ≤ pdf c s := fun s hs => by have := h.2 s hs; omega
  have hij' : i.val < j.val := hij
  have h1 := get_mono c hp (i.val + 1) j.val (by omega) j.2
  have h2 := get_step c i.val
  have h3 := h.2 (i.val + 1) (by omega)
  rw [get_eq] at h1 h2
  omega

/-- The distribution after a history of (symbol, speed) updates. -/
def adapt (hist : List (Nat × Speed)) : Cdf :=
  hist.foldl (fun c x => blend c x.1 x.2) default

/-- The same with the unbounded-integer update. -/
def adaptSpec (hist : List (Nat × Speed)) : Cdf :=
  hist.foldl (fun c x => blendSpec c x.1 x.2) default

theorem adapt_healthy (hist : List (Nat × Speed)) (hs : ∀ x ∈ hist, SafeSpeed x.2) :
    Healthy (adapt hist) ∧ adapt hist = adaptSpec hist := by
  induction hist using List.reverseRecOn with
  | nil => exact ⟨healthy_default, rfl⟩
  | append_singleton l x ih =>
    obtain ⟨h1, h2⟩ := ih (fun y hy => hs y (by simp [hy]))
    have hx := hs x (by simp)
    have e : adapt (l ++ [x]) = blend (adapt l) x.1 x.2 := by simp [adapt]
    have e2 : adaptSpec (l ++ [x]) = blendSpec (adaptSpec l) x.1 x.2 := by simp [adaptSpec]
    rw [e, e2, ← h2]
    exact ⟨healthy_blend _ h1 _ _ hx, blend_eq_spec _ h1 _ _ hx⟩

/-- C06: after any history of updates with safe speeds the distribution is strictly increasing with
total at most `2^14`, and no 16-bit counter ever wrapped (it equals the unbounded computation). -/
theorem cdf_history_valid (hist : List (Nat × Speed)) (hs : ∀ x ∈ hist, SafeSpeed x.2) :
    StrictlyIncreasing (adapt hist) ∧ max (adapt hist) ≤ 2 ^ 14 ∧ adapt hist = adaptSpec hist :=
  ⟨(adapt_healthy hist hs).1.increasing.1, (adapt_healthy hist hs).1.increasing.2,
    (adapt_healthy hist hs).2⟩

/-- The constant speeds of /repo/src/probability/interface.rs:304-329 (palette, then GEOLOGIC ..
ROCKET). -/
def builtinSpeeds : List Speed :=
  [⟨0, 1024⟩, ⟨2, 1024⟩, ⟨1, 128⟩, ⟨1, 16384⟩, ⟨2, 2048⟩, ⟨4, 1024⟩, ⟨8, 8192⟩, ⟨16, 48⟩,
   ⟨16, 8192⟩, ⟨32, 4096⟩, ⟨64, 16384⟩, ⟨128, 256⟩, ⟨128, 16384⟩, ⟨512, 16384⟩, ⟨1664, 16384⟩,
   ⟨0x1, 0x4000⟩, ⟨0x4, 0xa00⟩, ⟨0x10, 0x2000⟩, ⟨0x20, 0x1000⟩, ⟨0x30, 0x4000⟩, ⟨0x60, 0x4000⟩,
   ⟨0x80, 0x4000⟩, ⟨0x180, 0x4000⟩]

/-- C06: every built-in speed is safe. -/
theorem builtin_speeds_safe : ∀ sp ∈ builtinSpeeds, SafeSpeed sp := by
  unfold SafeSpeed; decide

/-- C06, the full claim for the speeds the option parser accepts (`inc < 16384`, `lim <= 16384`,
/repo/src/probability/interface.rs:404) is false: two symbols coded with speed `16383,16384` overflow
a 16-bit counter. -/
theorem accepted_speed_overflows :
    ∃ hist : List (Nat × Speed), (∀ x ∈ hist, 0 ≤ x.2.inc ∧ x.2.inc < 16384 ∧ x.2.lim ≤ 16384) ∧
      ¬ StrictlyIncreasing (adapt hist) := by
  refine ⟨[(0, ⟨16383, 16384⟩), (0, ⟨16383, 16384⟩), (15, ⟨16383, 16384⟩)], by decide, ?_⟩
  rintro ⟨-, h⟩
  have := h 14 15 (by decide)
  revert this
  decide +kernel

/-- C07: after any history the production distribution holds the same counts as the plain one, and
gives the same slot for every symbol and the same answer to every lookup. -/
theorem opt_equals_plain (hist : List (Nat × Speed)) (hs : ∀ x ∈ hist, SafeSpeed x.2) :
    let o := hist.foldl (fun o x => Opt.blend o x.1 x.2) Opt.default
    let c := adapt hist
    o.cdf = c ∧
    (∀ s, s < 16 → o.symRange s = symRange (divByMax c) c s) ∧
    (∀ off : Int, o.lookup off = lookup (divByMax c) c off) := by
  have key : ∀ hist : List (Nat × Speed),
      hist.foldl (fun o x => Opt.blend o x.1 x.2) Opt.default = Opt.new (adapt hist) := by
    intro hist
    induction hist using List.reverseRecOn with
    | nil => rfl
    | append_singleton l x ih =>
      rw [List.foldl_append, ih]
      simp [adapt, Opt.blend, Opt.new]
  intro o c
  have ho : o = Opt.new c := key hist
  obtain ⟨i1, i2⟩ := (adapt_healthy hist hs).1.increasing
  have hu := usable_of_increasing c i1 i2
  have hsym : ∀ s, s < 16 → o.symRange s = symRange (divByMax c) c s := by
    intro s h
    rw [ho, Opt.symRange]
    rw [symRange_eq _ c hu (exactDiv_plain c (max_pos c hu)) s h]
    exact symRange_eq _ c hu (exactDiv_opt c (max_pos c hu) hu.1) s h
  have hlt : ∀ r n s, firstAbove c r n s ≤ s + n := by
    intro r n
    induction n with
    | zero => intro s; simp [firstAbove]
    | succ n ih =>
      intro s
      rw [firstAbove]
      split_ifs
      · omega
      · have := ih (s + 1); omega
  refine ⟨by rw [ho]; rfl, hsym, fun off => ?_⟩
  have := hlt (i16 ((off * max c) >>> 15)) 15 0
  have h2 := hsym (lookupSym c off) (by unfold lookupSym; omega)
  rw [ho] at h2 ⊢
  simp only [Opt.lookup, lookup, Opt.new] at h2 ⊢
  congr 1

/-! ### Mixing (C32) -/

theorem clz32_shift (p : Int) (hp : 1 ≤ p) (hp2 : p ≤ 2 ^ 28) :
    let sh := 17 - min (clz32 p) 17
    p / 2 ^ sh < 2 ^ 15 ∧ (sh = 0 ∨ 2 ^ 14 * 2 ^ sh ≤ p) := by
  intro sh
  obtain ⟨n, rfl⟩ : ∃ n : Nat, p = n := ⟨p.toNat, by omega⟩
  obtain ⟨b1, b2, b3⟩ := bitLen_bounds n (by omega)
  have hL : bitLen n ≤ 29 := by
    by_contra hc
    have : 2 ^ 29 ≤ 2 ^ (bitLen n - 1) := Nat.pow_le_pow_right (by omega) (by omega)
    omega
  have hsh : sh = bitLen n - 15 := by
    simp only [sh, clz32, Int.toNat_natCast]
    omega
  rw [hsh]
  by_cases h15 : bitLen n ≤ 15
  · have : bitLen n - 15 = 0 := by omega
    rw [this]
    have h3 : 2 ^ bitLen n ≤ 2 ^ 15 := Nat.pow_le_pow_right (by omega) h15
    refine ⟨by simp; omega, Or.inl rfl⟩
  · have e1 : 2 ^ bitLen n = 2 ^ 15 * 2 ^ (bitLen n - 15) := by
      rw [← Nat.pow_add]; congr 1; omega
    have e2 : 2 ^ (bitLen n - 1) = 2 ^ 14 * 2 ^ (bitLen n - 15) := by
      rw [← Nat.pow_add]; congr 1; omega
    rw [e1] at b2
    rw [e2] at b1
    generalize bitLen n - 15 = k at *
    have hk : (0 : Int) < 2 ^ k := by positivity
    refine ⟨?_, Or.inr (by exact_mod_cast b1)⟩
    rw [Int.ediv_lt_iff_lt_mul hk]
    exact_mod_cast b2

theorem scaled_gap (x p m K : Int) (hK : 0 < K) (h : 3 * K ≤ p * m) :
    x * m / K + 3 ≤ (x + p) * m / K := by
  rw [← Int.add_mul_ediv_right _ _ (by omega : K ≠ 0)]
  apply Int.ediv_le_ediv hK
  nlinarith

/-- C32: mixing two distributions that adaptation can reach, with any weight in `[0, 2^15]`, gives
a distribution in which every symbol has a valid slot and lookups are exact (also for the production
type). -/
theorem average_usable (a b : Cdf) (ha : Healthy a) (hb : Healthy b) (w : Int) (hw : 0 ≤ w)
    (hw2 : w ≤ 2 ^ 15) : StrictlyIncreasing (average a b w) ∧ Usable (average a b w) := by
  have hA := ha.bounds 15
  have hB := hb.bounds 15
  have hA48 : 48 ≤ a 15 := by
    obtain ⟨-, h2, h3⟩ := (healthy_iff a).1 ha
    have := h3 0 (by omega); have := h3 1 (by omega); have := h3 2 (by omega)
    have := h3 3 (by omega); have := h3 4 (by omega); have := h3 5 (by omega)
    have := h3 6 (by omega); have := h3 7 (by omega); have := h3 8 (by omega)
    have := h3 9 (by omega); have := h3 10 (by omega); have := h3 11 (by omega)
    have := h3 12 (by omega); have := h3 13 (by omega); have := h3 14 (by omega)
    simp at *; omega
  have hB48 : 48 ≤ b 15 := by
    obtain ⟨-, h2, h3⟩ := (healthy_iff b).1 hb
    have := h3 0 (by omega); have := h3 1 (by omega); have := h3 2 (by omega)
    have := h3 3 (by omega); have := h3 4 (by omega); have := h3 5 (by omega)
    have := h3 6 (by omega); have := h3 7 (by omega); have := h3 8 (by omega)
    have := h3 9 (by omega); have := h3 10 (by omega); have := h3 11 (by omega)
    have := h3 12 (by omega); have := h3 13 (by omega); have := h3 14 (by omega)
    simp at *; omega
  have hp1 : 1 ≤ a 15 * b 15 := by nlinarith
  have hp2 : a 15 * b 15 ≤ 2 ^ 28 := by nlinarith
  obtain ⟨q1, q2⟩ := clz32_shift (a 15 * b 15) hp1 hp2
  set sh := 17 - min (clz32 (a 15 * b 15)) 17 with hsh
  have hK : (0 : Int) < 2 ^ sh := by positivity
  have hKA : (2 : Int) ^ sh ≤ a 15 := by
    rcases q2 with q2 | q2
    · rw [q2]; omega
    · nlinarith
  have hKB : (2 : Int) ^ sh ≤ b 15 := by
    rcases q2 with q2 | q2
    · rw [q2]; omega
    · nlinarith
  -- closed form
  have hval : ∀ i, average a b w i =
      i16 ((a i * b 15 / 2 ^ sh * w + b i * a 15 / 2 ^ sh * (2 ^ 15 - w) + 1) / 2 ^ 15) := by
    intro i
    simp only [average, max, Int.shiftRight_eq_div_pow, ← hsh]
    norm_num
  generalize (2 : Int) ^ sh = K at *
  clear hsh q2
  let X : Fin 16 → Int := fun i => a i * b 15 / K
  let Y : Fin 16 → Int := fun i => b i * a 15 / K
  let f : Fin 16 → Int := fun i => (X i * w + Y i * (2 ^ 15 - w) + 1) / 2 ^ 15
  have hX : ∀ (k : Nat) (hk : k + 1 < 16), X ⟨k, by omega⟩ + 3 ≤ X ⟨k + 1, hk⟩ := by
    intro k hk
    have := ((healthy_iff a).1 ha).2.2 k hk
    have := scaled_gap (a ⟨k, by omega⟩) (a ⟨k + 1, hk⟩ - a ⟨k, by omega⟩) (b 15) K hK (by nlinarith)
    simpa [X] using this
  have hY : ∀ (k : Nat) (hk : k + 1 < 16), Y ⟨k, by omega⟩ + 3 ≤ Y ⟨k + 1, hk⟩ := by
    intro k hk
    have := ((healthy_iff b).1 hb).2.2 k hk
    have := scaled_gap (b ⟨k, by omega⟩) (b ⟨k + 1, hk⟩ - b ⟨k, by omega⟩) (a 15) K hK (by nlinarith)
    simpa [Y] using this
  have hX0 : 3 ≤ X 0 := by
    have h1 := ((healthy_iff a).1 ha).2.1
    have := scaled_gap 0 (a 0) (b 15) K hK (by nlinarith)
    simpa [X] using this
  have hY0 : 3 ≤ Y 0 := by
    have h1 := ((healthy_iff b).1 hb).2.1
    have := scaled_gap 0 (b 0) (a 15) K hK (by nlinarith)
    simpa [Y] using this
  have hXY : X 15 = Y 15 := by simp only [X, Y]; rw [Int.mul_comm]
  have hX15 : X 15 < 2 ^ 15 := q1
  have fgap : ∀ (k : Nat) (hk : k + 1 < 16), f ⟨k, by omega⟩ + 3 ≤ f ⟨k + 1, hk⟩ := by
    intro k hk
    have h1 := hX k hk
    have h2 := hY k hk
    simp only [f]
    rw [← Int.add_mul_ediv_right _ _ (by norm_num)]
    apply Int.ediv_le_ediv (by norm_num)
    nlinarith
  have f0 : 3 ≤ f 0 := by
    simp only [f]
    rw [Int.le_ediv_iff_mul_le (by norm_num)]
    nlinarith
  have f15 : f 15 < 2 ^ 15 := by
    simp only [f, ← hXY]
    rw [Int.ediv_lt_iff_lt_mul (by norm_num)]
    nlinarith
  have fle : ∀ (n : Nat) (hn : n < 16), 3 ≤ f ⟨n, hn⟩ := by
    intro n
    induction n with
    | zero => intro _; exact f0
    | succ n ih => intro hn; have := ih (by omega); have := fgap n hn; omega
  have fup : ∀ (n : Nat) (hn : n < 16), f ⟨15 - n, by omega⟩ < 2 ^ 15 := by
    intro n
    induction n with
    | zero => intro _; exact f15
    | succ n ih =>
      intro hn
      have h1 := ih (by omega)
      have h2 := fgap (15 - (n + 1)) (by omega)
      have e : (⟨15 - (n + 1) + 1, by omega⟩ : Fin 16) = ⟨15 - n, by omega⟩ := by
        apply Fin.ext; simp; omega
      rw [e] at h2
      omega
  have hf : average a b w = f := by
    funext i
    rw [hval i]
    have h1 : 3 ≤ f i := fle i.val i.2
    have h2 := fup (15 - i.val) (by omega)
    have e : (⟨15 - (15 - i.val), by omega⟩ : Fin 16) = i := by
      apply Fin.ext; simp; omega
    rw [e] at h2
    exact i16_id (f i) (by omega) h2
  rw [hf]
  have hpdf : ∀ s, s < 16 → 3 ≤ pdf f s := by
    intro s hs
    have e : ∀ (s : Nat) (hs : s < 16), get f s = f ⟨s, hs⟩ := fun s hs => get_eq f ⟨s, hs⟩
    unfold pdf
    cases s with
    | zero => rw [e 0 (by omega)]; simpa using f0
    | succ k =>
      have := fgap k hs
      rw [e (k + 1) hs, if_neg (by omega), Nat.add_sub_cancel, e k (by omega)]
      omega
  have hmaxf : max f < 2 ^ 15 := f15
  refine ⟨⟨by omega, fun i j hij => ?_⟩, by omega, fun s hs => ?_⟩
  · have hp : ∀ s, s < 16 → 1 ≤ pdf f s := fun s hs => by have := hpdf s hs; omega
    have hij' : i.val < j.val := hij
    have h1 := get_mono f hp (i.val + 1) j.val (by omega) j.2
    have h2 := get_step f i.val
    have h3 := hpdf (i.val + 1) (by omega)
    rw [get_eq] at h1 h2
    omega
  · have := hpdf s hs
    omega

/-- C32: so the mixed distribution of the production type has exact slots and lookups. -/
theorem average_slots_exact (a b : Cdf) (ha : Healthy a) (hb : Healthy b) (w : Int) (hw : 0 ≤ w)
    (hw2 : w ≤ 2 ^ 15) (o : Opt) (ho : o = (Opt.new a).average (Opt.new b) w) :
    SlotsExact (fun s => (o.symRange s).toSlot)
      (fun off => ((o.lookup off).1, (o.lookup off).2.toSlot)) := by
  have hu := (average_usable a b ha hb w hw hw2).2
  subst ho
  exact slotsExact_of_usable _ _ hu (exactDiv_opt _ (max_pos _ hu) hu.1)

/-- The hypotheses are met by everything adaptation can reach. -/
theorem adapt_reaches_healthy (hist : List (Nat × Speed)) (hs : ∀ x ∈ hist, SafeSpeed x.2) :
    Healthy (adapt hist) := (adapt_healthy hist hs).1

example : Healthy (adapt [(3, ⟨1664, 16384⟩), (7, ⟨16, 48⟩)]) :=
  adapt_reaches_healthy _ (by unfold SafeSpeed; decide)

/-- C32: for arbitrary strictly increasing distributions with total at most `2^14` (not reachable by
adaptation) mixing may leave a symbol without any slot: here the first symbol gets frequency 0. -/
theorem average_arbitrary_fails :
    ∃ (c : Cdf), StrictlyIncreasing c ∧ max c ≤ 2 ^ 14 ∧
      ((Opt.new c).average (Opt.new c) 0).symRange 0 = ⟨1, 0⟩ := by
  refine ⟨fun i => if i.val = 15 then 16383 else i.val + 1, ⟨by decide, ?_⟩, by decide, by decide +kernel⟩
  intro i j hij
  have : i.val < j.val := hij
  dsimp only
  split_ifs <;> omega

end Divans.Cdf
