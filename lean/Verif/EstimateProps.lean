import Verif.Estimate
import Mathlib.Analysis.SpecialFunctions.Log.Base
import Mathlib.Data.List.Nodup

/-!
# C99: what the example program that estimates costs computes
-/

namespace Divans.Estimate
open Divans.Cdf

/-! ## Specification -/

/-- The values that were recorded for a prior, in order. -/
def valuesOf (p : Nat) (rs : List (Nat × Nat)) : List Nat := (rs.filter fun r => r.1 == p).map Prod.snd

/-- The probability that an adaptive distribution gives to a sequence of symbols, beginning with the counts `c`. -/
def chance (sp : Speed) : Cdf → List Nat → ℚ
  | _, [] => 1
  | c, x :: t => (pdf c x : ℚ) / (Cdf.max c : ℚ) * chance sp (blend c x sp) t

/-- The probability of the upper halves of bytes. -/
def highChance (sp : Speed) (vs : List Nat) : ℚ := chance sp Cdf.default (vs.map (· / 16))

/-- The lower halves of the bytes with a given upper half. -/
def lows (h : Nat) (vs : List Nat) : List Nat := (vs.filter fun v => v / 16 == h).map (· % 16)

/-- The probability of the lower halves, with a distribution for each upper half. -/
def lowChance (sp : Speed) (vs : List Nat) : ℚ := ∏ h ∈ Finset.range 16, chance sp Cdf.default (lows h vs)

/-- Bits for an event of some probability. -/
noncomputable def bitsOf (q : ℚ) : ℝ := -Real.logb 2 (q : ℝ)

/-- The real numbers for `f64`. -/
noncomputable def real : Arith ℝ :=
  open Classical in ⟨0, (· + ·), fun x y => decide (x > y), fun n d => -Real.logb 2 ((n : ℝ) / (d : ℝ))⟩

/-- The least of some numbers. -/
def IsBest (f : Speed → ℝ) (speeds : List Speed) (b : ℝ) : Prop := (∃ sp ∈ speeds, b = f sp) ∧ ∀ sp ∈ speeds, b ≤ f sp

/-! ## Grouping -/

theorem valuesOf_snoc (p : Nat) (rs : List (Nat × Nat)) (r : Nat × Nat) :
    valuesOf p (rs ++ [r]) = valuesOf p rs ++ if r.1 = p then [r.2] else [] := by
  unfold valuesOf
  by_cases h : r.1 = p <;> simp [List.filter_append, h]

theorem groups_snoc (rs : List (Nat × Nat)) (r : Nat × Nat) : groups (rs ++ [r]) = push (groups rs) r := by simp [groups]

/-- **C99, grouping.**  In the map each prior stands once, with exactly the values recorded for it, in order. -/
theorem groups_spec (rs : List (Nat × Nat)) :
    ((groups rs).map Prod.fst).Nodup ∧
      ∀ p vs, (p, vs) ∈ groups rs ↔ vs = valuesOf p rs ∧ vs ≠ [] := by
  induction rs using List.reverseRecOn with
  | nil => simp [groups, valuesOf]
  | append_singleton rs r ih =>
    obtain ⟨h1, h2⟩ := ih
    rw [groups_snoc]
    unfold push
    by_cases hm : r.1 ∈ (groups rs).map Prod.fst
    · rw [if_pos hm]
      refine ⟨?_, fun p vs => ?_⟩
      · rw [List.map_map]
        convert h1 using 2
        funext g
        simp only [Function.comp]
        split <;> rfl
      · rw [valuesOf_snoc, List.mem_map]
        constructor
        · rintro ⟨⟨q, ws⟩, hg, he⟩
          obtain ⟨e1, e2⟩ := (h2 q ws).1 hg
          by_cases hq : q = r.1
          · rw [if_pos hq] at he
            simp only [Prod.mk.injEq] at he
            obtain ⟨rfl, rfl⟩ := he
            rw [if_pos hq.symm, e1]
            simp
          · rw [if_neg hq] at he
            simp only [Prod.mk.injEq] at he
            obtain ⟨rfl, rfl⟩ := he
            rw [if_neg (fun h => hq h.symm), List.append_nil]
            exact ⟨e1, e2⟩
        · rintro ⟨e1, e2⟩
          by_cases hq : r.1 = p
          · rw [if_pos hq] at e1
            obtain ⟨⟨q, ws⟩, hg, he⟩ := List.mem_map.1 hm
            simp only at he
            have hqp : q = p := he.trans hq
            refine ⟨(q, ws), hg, ?_⟩
            rw [if_pos he, e1, ((h2 q ws).1 hg).1, hqp]
          · rw [if_neg hq, List.append_nil] at e1
            exact ⟨(p, vs), (h2 p vs).2 ⟨e1, e2⟩, by rw [if_neg (fun h => hq h.symm)]⟩
    · rw [if_neg hm]
      have hnone : valuesOf r.1 rs = [] := by
        by_contra hne
        exact hm (List.mem_map.2 ⟨_, (h2 r.1 _).2 ⟨rfl, hne⟩, rfl⟩)
      refine ⟨?_, fun p vs => ?_⟩
      · rw [List.map_append, List.nodup_append]
        refine ⟨h1, by simp, ?_⟩
        intro a ha b hb hab
        simp only [List.map_cons, List.map_nil, List.mem_singleton] at hb
        exact hm (hb ▸ hab ▸ ha)
      · rw [valuesOf_snoc, List.mem_append, List.mem_singleton, Prod.mk.injEq]
        by_cases hq : r.1 = p
        · subst hq
          rw [if_pos rfl, hnone, h2, hnone]
          constructor
          · rintro (⟨e1, e2⟩ | ⟨-, e⟩)
            · exact absurd e1 e2
            · exact ⟨e, by simp [e]⟩
          · rintro ⟨e, -⟩
            exact Or.inr ⟨rfl, e⟩
        · rw [if_neg hq, List.append_nil, h2]
          constructor
          · rintro (h | ⟨e, -⟩)
            · exact h
            · exact absurd e.symm hq
          · exact Or.inl

/-- Inputs in which each prior has the same values, in whatever way they are mixed, lead to the same map. -/
theorem groups_perm {rs rs' : List (Nat × Nat)} (h : ∀ p, valuesOf p rs = valuesOf p rs') : (groups rs).Perm (groups rs') := by
  obtain ⟨h1, h2⟩ := groups_spec rs
  obtain ⟨g1, g2⟩ := groups_spec rs'
  rw [List.perm_ext_iff_of_nodup h1.of_map g1.of_map]
  rintro ⟨p, vs⟩
  rw [h2, g2, h]

/-! ## The cost of a stream -/

theorem chance_snoc (sp : Speed) (xs : List Nat) (x : Nat) : ∀ c, chance sp c (xs ++ [x]) =
    chance sp c xs * ((pdf (xs.foldl (fun c x => blend c x sp) c) x : ℚ) / (Cdf.max (xs.foldl (fun c x => blend c x sp) c) : ℚ)) := by
  induction xs with
  | nil => intro c; simp [chance]
  | cons y t ih => intro c; simp only [List.cons_append, chance, ih, List.foldl_cons]; ring

/-- The counts after some symbols. -/
def after (sp : Speed) (xs : List Nat) : Cdf := xs.foldl (fun c x => blend c x sp) Cdf.default

theorem after_healthy {sp : Speed} (hs : SafeSpeed sp) (xs : List Nat) : Healthy (after sp xs) := by
  have := (adapt_healthy (xs.map fun x => (x, sp)) (by simp [hs])).1
  unfold adapt at this
  rw [List.foldl_map] at this
  exact this

theorem ratio_range {c : Cdf} (h : Healthy c) {s : Nat} (hs : s < 16) :
    (0 : ℚ) < (pdf c s : ℚ) / (Cdf.max c : ℚ) ∧ (pdf c s : ℚ) / (Cdf.max c : ℚ) ≤ 1 := by
  have h1 : 3 ≤ pdf c s := h.2 s hs
  have h2 : pdf c s ≤ Cdf.max c := by
    have hp : ∀ s, s < 16 → 1 ≤ pdf c s := fun s hs => by have := h.2 s hs; omega
    have a := get_mono c hp s 15 (by omega) (by omega)
    rw [get_max] at a
    unfold pdf
    by_cases h0 : s = 0
    · rw [if_pos h0]; omega
    · rw [if_neg h0]
      have b := (h.get_bounds (s - 1) (by omega)).1
      omega
  have h3 : (0 : ℚ) < (pdf c s : ℚ) := by exact_mod_cast (by omega : 0 < pdf c s)
  have h4 : (0 : ℚ) < (Cdf.max c : ℚ) := by exact_mod_cast (by omega : 0 < Cdf.max c)
  exact ⟨div_pos h3 h4, (div_le_one h4).2 (by exact_mod_cast h2)⟩

theorem chance_range {sp : Speed} (hs : SafeSpeed sp) (xs : List Nat) (hx : ∀ x ∈ xs, x < 16) :
    0 < chance sp Cdf.default xs ∧ chance sp Cdf.default xs ≤ 1 := by
  induction xs using List.reverseRecOn with
  | nil => simp [chance]
  | append_singleton xs x ih =>
    obtain ⟨h1, h2⟩ := ih (fun y hy => hx y (by simp [hy]))
    obtain ⟨g1, g2⟩ := ratio_range (after_healthy hs xs) (hx x (by simp))
    rw [chance_snoc]
    exact ⟨mul_pos h1 g1, mul_le_one₀ h2 g1.le g2⟩

theorem lows_snoc (h : Nat) (vs : List Nat) (v : Nat) : lows h (vs ++ [v]) = lows h vs ++ if v / 16 = h then [v % 16] else [] := by
  unfold lows
  by_cases e : v / 16 = h <;> simp [List.filter_append, e]

theorem lows_lt (h : Nat) (vs : List Nat) : ∀ x ∈ lows h vs, x < 16 := by
  intro x hx
  simp only [lows, List.mem_map] at hx
  obtain ⟨v, -, rfl⟩ := hx
  exact Nat.mod_lt _ (by decide)

theorem lowChance_range {sp : Speed} (hs : SafeSpeed sp) (vs : List Nat) : 0 < lowChance sp vs ∧ lowChance sp vs ≤ 1 :=
  ⟨Finset.prod_pos fun h _ => (chance_range hs _ (lows_lt h vs)).1,
    Finset.prod_le_one (fun h _ => (chance_range hs _ (lows_lt h vs)).1.le) fun h _ => (chance_range hs _ (lows_lt h vs)).2⟩

theorem bitsOf_mul {p q : ℚ} (hp : 0 < p) (hq : 0 < q) : bitsOf (p * q) = bitsOf p + bitsOf q := by
  unfold bitsOf
  rw [Rat.cast_mul, Real.logb_mul (by exact_mod_cast hp.ne') (by exact_mod_cast hq.ne')]
  ring

theorem bitsOf_nonneg {p : ℚ} (hp : 0 < p) (h1 : p ≤ 1) : 0 ≤ bitsOf p := by
  unfold bitsOf
  have := Real.logb_nonpos (b := 2) (by norm_num) (x := (p : ℝ)) (by exact_mod_cast hp.le) (by exact_mod_cast h1)
  linarith

theorem highs_lt {vs : List Nat} (hv : ∀ v ∈ vs, v < 256) : ∀ x ∈ vs.map (· / 16), x < 16 := by
  intro x hx
  obtain ⟨v, h, rfl⟩ := List.mem_map.1 hx
  have := hv v h
  omega

/-- **C99, the cost of a stream.**  With a safe speed, the cost of the upper halves is the number of bits for the probability that
one adaptive distribution gives to their sequence; that of the lower halves is the number of bits for the product of what the
sixteen distributions give to theirs.  The probabilities are positive: the costs are numbers, and not negative. -/
theorem track_spec {sp : Speed} (hs : SafeSpeed sp) (vs : List Nat) (hv : ∀ v ∈ vs, v < 256) :
    (track real sp vs).highCost = bitsOf (highChance sp vs) ∧ (track real sp vs).lowCost = bitsOf (lowChance sp vs) ∧
      0 < highChance sp vs ∧ highChance sp vs ≤ 1 ∧ 0 < lowChance sp vs ∧ lowChance sp vs ≤ 1 := by
  have hr := chance_range hs _ (highs_lt hv)
  have lr := lowChance_range hs vs
  suffices h : (track real sp vs).highCost = bitsOf (highChance sp vs) ∧ (track real sp vs).lowCost = bitsOf (lowChance sp vs) ∧
      (track real sp vs).high = after sp (vs.map (· / 16)) ∧ ∀ h, (track real sp vs).low h = after sp (lows h vs) from
    ⟨h.1, h.2.1, hr.1, hr.2, lr.1, lr.2⟩
  clear hr lr
  induction vs using List.reverseRecOn with
  | nil => simp [track, real, highChance, lowChance, chance, bitsOf, after, lows]
  | append_singleton vs v ih =>
    have hv' : ∀ x ∈ vs, x < 256 := fun x hx => hv x (by simp [hx])
    obtain ⟨h1, h2, h3, h4⟩ := ih hv'
    have e : track real sp (vs ++ [v]) = step real sp (track real sp vs) v := by simp [track]
    have hlt : v / 16 < 16 := by have := hv v (by simp); omega
    rw [e]
    simp only [step, h1, h2, h3, h4]
    refine ⟨?_, ?_, ?_, fun h => ?_⟩
    · have hc : highChance sp (vs ++ [v]) = highChance sp vs *
          ((pdf (after sp (vs.map (· / 16))) (v / 16) : ℚ) / (Cdf.max (after sp (vs.map (· / 16))) : ℚ)) := by
        unfold highChance
        rw [List.map_append, List.map_cons, List.map_nil, chance_snoc]
        rfl
      rw [hc, bitsOf_mul (show 0 < highChance sp vs from (chance_range hs _ (highs_lt hv')).1) (ratio_range (after_healthy hs _) hlt).1]
      simp [real, bitsOf]
    · have hc : lowChance sp (vs ++ [v]) = lowChance sp vs *
          ((pdf (after sp (lows (v / 16) vs)) (v % 16) : ℚ) / (Cdf.max (after sp (lows (v / 16) vs)) : ℚ)) := by
        unfold lowChance
        rw [← Finset.mul_prod_erase _ _ (Finset.mem_range.2 hlt), ← Finset.mul_prod_erase (Finset.range 16)
          (fun h => chance sp Cdf.default (lows h vs)) (Finset.mem_range.2 hlt)]
        rw [lows_snoc, if_pos rfl, chance_snoc]
        rw [Finset.prod_congr rfl (fun h hh => by
          rw [lows_snoc, if_neg (fun e => (Finset.mem_erase.1 hh).1 e.symm), List.append_nil])]
        unfold after
        ring
      rw [hc, bitsOf_mul (lowChance_range hs _).1 (ratio_range (after_healthy hs _) (Nat.mod_lt _ (by decide))).1]
      simp [real, bitsOf]
    · simp [after]
    · rw [lows_snoc]
      by_cases hh : h = v / 16
      · subst hh
        simp [after]
      · rw [if_neg hh, if_neg (fun e => hh e.symm), List.append_nil]

/-! ## The best speed, and the sum -/

theorem better_real (f : Speed → ℝ) : ∀ (speeds : List Speed) (b : ℝ) (done : List Speed), IsBest f done b →
    ∃ b', speeds.foldl (fun x sp => better real x (f sp)) (some b) = some b' ∧ IsBest f (done ++ speeds) b' := by
  intro speeds
  induction speeds with
  | nil => intro b done h; exact ⟨b, rfl, by simpa using h⟩
  | cons s t ih =>
    intro b done h
    rw [List.foldl_cons]
    have hb : IsBest f (done ++ [s]) (if b > f s then f s else b) := by
      obtain ⟨⟨sp, hsp, e⟩, h2⟩ := h
      by_cases hc : b > f s
      · rw [if_pos hc]
        refine ⟨⟨s, by simp, rfl⟩, fun x hx => ?_⟩
        rcases List.mem_append.1 hx with hx | hx
        · exact hc.le.trans (h2 x hx)
        · rw [List.mem_singleton.1 hx]
      · rw [if_neg hc]
        refine ⟨⟨sp, by simp [hsp], e⟩, fun x hx => ?_⟩
        rcases List.mem_append.1 hx with hx | hx
        · exact h2 x hx
        · rw [List.mem_singleton.1 hx]; exact not_lt.1 hc
    obtain ⟨b', e, h'⟩ := ih _ _ hb
    refine ⟨b', ?_, by simpa using h'⟩
    rw [← e]
    simp only [better, real, decide_eq_true_eq]

theorem bests_real {speeds : List Speed} (hne : speeds ≠ []) (vs : List Nat) :
    ∃ h l, bests real speeds vs = (some h, some l) ∧ IsBest (fun sp => (track real sp vs).highCost) speeds h ∧
      IsBest (fun sp => (track real sp vs).lowCost) speeds l := by
  match speeds, hne with
  | s :: t, _ =>
    have split : ∀ (l : List Speed) (x y : Option ℝ),
        l.foldl (fun b sp => (better real b.1 (track real sp vs).highCost, better real b.2 (track real sp vs).lowCost)) (x, y) =
          (l.foldl (fun x sp => better real x (track real sp vs).highCost) x,
            l.foldl (fun x sp => better real x (track real sp vs).lowCost) y) := by
      intro l
      induction l with
      | nil => intro x y; rfl
      | cons a l ih => intro x y; simp only [List.foldl_cons, ih]
    obtain ⟨h, e1, h1⟩ := better_real (fun sp => (track real sp vs).highCost) t _ [s] ⟨⟨s, by simp, rfl⟩, by simp⟩
    obtain ⟨l, e2, h2⟩ := better_real (fun sp => (track real sp vs).lowCost) t _ [s] ⟨⟨s, by simp, rfl⟩, by simp⟩
    refine ⟨h, l, ?_, h1, h2⟩
    unfold bests
    rw [List.foldl_cons, split]
    exact Prod.ext e1 e2

theorem isBest_unique {f : Speed → ℝ} {speeds : List Speed} {b b' : ℝ} (h : IsBest f speeds b) (h' : IsBest f speeds b') : b = b' := by
  obtain ⟨⟨s, hs, e⟩, h2⟩ := h
  obtain ⟨⟨s', hs', e'⟩, h2'⟩ := h'
  exact le_antisymm (e' ▸ h2 s' hs') (e ▸ h2' s hs)

/-- The cost of a stream with the best of some speeds, chosen for the upper and the lower halves apart. -/
def StreamCost (speeds : List Speed) (vs : List Nat) (c : ℝ) : Prop :=
  ∃ h l, IsBest (fun sp => bitsOf (highChance sp vs)) speeds h ∧ IsBest (fun sp => bitsOf (lowChance sp vs)) speeds l ∧ c = h + l

theorem streamCost_unique {speeds : List Speed} {vs : List Nat} {c c' : ℝ} (h : StreamCost speeds vs c) (h' : StreamCost speeds vs c') :
    c = c' := by
  obtain ⟨a, b, h1, h2, rfl⟩ := h
  obtain ⟨a', b', h1', h2', rfl⟩ := h'
  rw [isBest_unique h1 h1', isBest_unique h2 h2']

theorem streamCost_exists {speeds : List Speed} (hne : speeds ≠ []) (hs : ∀ sp ∈ speeds, SafeSpeed sp) {vs : List Nat}
    (hv : ∀ v ∈ vs, v < 256) :
    ∃ h l, bests real speeds vs = (some h, some l) ∧ StreamCost speeds vs (h + l) ∧ 0 ≤ h + l := by
  obtain ⟨h, l, e, ⟨⟨s1, m1, e1⟩, b1⟩, ⟨⟨s2, m2, e2⟩, b2⟩⟩ := bests_real hne vs
  have k := fun sp hsp => track_spec (hs sp hsp) vs hv
  refine ⟨h, l, e, ⟨h, l, ⟨⟨s1, m1, ?_⟩, fun sp hsp => ?_⟩, ⟨⟨s2, m2, ?_⟩, fun sp hsp => ?_⟩, rfl⟩, ?_⟩
  · rw [e1]; exact (k s1 m1).1
  · have := b1 sp hsp; simp only at this; rw [(k sp hsp).1] at this; exact this
  · rw [e2]; exact (k s2 m2).2.1
  · have := b2 sp hsp; simp only at this; rw [(k sp hsp).2.1] at this; exact this
  · obtain ⟨-, -, p1, p2, -⟩ := k s1 m1
    obtain ⟨-, -, -, -, q1, q2⟩ := k s2 m2
    have t1 := bitsOf_nonneg p1 p2
    have t2 := bitsOf_nonneg q1 q2
    rw [← (k s1 m1).1] at t1
    rw [← (k s2 m2).2.1] at t2
    simp only at e1 e2
    rw [e1, e2]
    linarith

/-- What a stream adds to the sum. -/
noncomputable def costOf (speeds : List Speed) (vs : List Nat) : ℝ :=
  match bests real speeds vs with
  | (some h, some l) => h + l
  | _ => 0

theorem costOf_spec {speeds : List Speed} (hne : speeds ≠ []) (hs : ∀ sp ∈ speeds, SafeSpeed sp) {vs : List Nat}
    (hv : ∀ v ∈ vs, v < 256) : StreamCost speeds vs (costOf speeds vs) ∧ 0 ≤ costOf speeds vs := by
  obtain ⟨h, l, e, h1, h2⟩ := streamCost_exists hne hs hv
  unfold costOf
  rw [e]
  exact ⟨h1, h2⟩

theorem total_real {speeds : List Speed} (hne : speeds ≠ []) :
    ∀ (gs : List (Nat × List Nat)) (c0 : ℝ), total real speeds gs c0 = some (c0 + (gs.map fun g => costOf speeds g.2).sum) := by
  intro gs
  induction gs with
  | nil => intro c0; simp [total]
  | cons g gs ih =>
    intro c0
    obtain ⟨h, l, e, -⟩ := bests_real hne g.2
    simp only [total, e, ih, List.map_cons, List.sum_cons, Option.some.injEq]
    have : costOf speeds g.2 = h + l := by unfold costOf; rw [e]
    rw [this]
    simp only [real]
    ring

/-! ## Lines -/

theorem hexDigits_lt (bound : Nat) : ∀ (s : List UInt8) (acc n : Nat), acc < bound → hexDigits bound acc s = some n → n < bound := by
  intro s
  induction s with
  | nil => intro acc n h e; simp only [hexDigits, Option.some.injEq] at e; omega
  | cons b t ih =>
    intro acc n h e
    simp only [hexDigits] at e
    split at e
    · cases e
    · split at e
      · rename_i hlt
        exact ih _ _ hlt e
      · cases e

theorem digits_lt (bound : Nat) : ∀ (s : List UInt8) (acc n : Nat), acc < bound → Text.digits bound acc s = some n → n < bound := by
  intro s
  induction s with
  | nil => intro acc n h e; simp only [Text.digits, Option.some.injEq] at e; omega
  | cons b t ih =>
    intro acc n h e
    simp only [Text.digits] at e
    split at e
    · rename_i hlt
      exact ih _ _ hlt.2.2 e
    · cases e

theorem number_lt {isHex : Bool} {bound : Nat} (hb : 0 < bound) {s : List UInt8} {n : Nat} (h : number isHex bound s = some n) : n < bound := by
  unfold number at h
  split at h
  · unfold parseHex at h
    simp only at h
    generalize (if s.headD 0 = 43 then s.tail else s) = ds at h
    split at h
    · cases h
    · exact hexDigits_lt bound _ 0 n hb h
  · unfold Text.parseNat at h
    simp only at h
    generalize (if s.headD 0 = 43 then s.tail else s) = ds at h
    split at h
    · cases h
    · exact digits_lt bound _ 0 n hb h

theorem parseLine_lt {isHex : Bool} {s : List UInt8} {r : Nat × Nat} (h : parseLine isHex s = .ok r) : r.1 < 2 ^ 64 ∧ r.2 < 256 := by
  unfold parseLine at h
  simp only at h
  generalize (if 44 ∈ trim s then (44 : UInt8) else 32) = sep at h
  split at h
  · cases h
  · rename_i h1
    split at h
    · split at h
      · cases h
      · rename_i h2
        simp only [Res.ok.injEq] at h
        subst h
        exact ⟨number_lt (by decide) h1, number_lt (by decide) h2⟩
    · cases h

theorem records_lt {isHex : Bool} : ∀ {src : List Get} {rs : List (Nat × Nat)}, records isHex src = .ok rs →
    ∀ r ∈ rs, r.1 < 2 ^ 64 ∧ r.2 < 256 := by
  intro src
  induction src with
  | nil => intro rs h; simp only [records, Res.ok.injEq] at h; subst h; simp
  | cons e t ih =>
    intro rs h
    cases e with
    | interrupted => exact ih h
    | fail => cases h
    | line s =>
      simp only [records] at h
      split at h
      · simp only [Res.ok.injEq] at h; subst h; simp
      · split at h
        · cases h
        · cases h
        · rename_i r hr
          split at h
          · rename_i rs' hrs
            simp only [Res.ok.injEq] at h
            subst h
            intro x hx
            rcases List.mem_cons.1 hx with rfl | hx
            · exact parseLine_lt hr
            · exact ih hrs x hx
          · rename_i hx
            exact absurd h (hx rs)

theorem valuesOf_lt {rs : List (Nat × Nat)} (h : ∀ r ∈ rs, r.1 < 2 ^ 64 ∧ r.2 < 256) (p : Nat) : ∀ v ∈ valuesOf p rs, v < 256 := by
  intro v hv
  simp only [valuesOf, List.mem_map, List.mem_filter] at hv
  obtain ⟨r, ⟨hr, -⟩, rfl⟩ := hv
  exact (h r hr).2

/-- A digit. -/
def hexChar (d : Nat) : UInt8 := if d < 10 then UInt8.ofNat (48 + d) else UInt8.ofNat (87 + d)

/-- A number in hexadecimal notation. -/
def hexOf (n : Nat) : List UInt8 := if n < 16 then [hexChar n] else hexOf (n / 16) ++ [hexChar (n % 16)]

theorem hexChar_digit : ∀ d, d < 16 → hexDigit (hexChar d) = some d := by decide

theorem hexChar_other : ∀ d, d < 16 → hexChar d ≠ 43 ∧ hexChar d ≠ 44 ∧ hexChar d ≠ 32 ∧ isSpace (hexChar d) = false := by decide

theorem hexOf_other (n : Nat) : ∀ b ∈ hexOf n, b ≠ 43 ∧ b ≠ 44 ∧ b ≠ 32 ∧ isSpace b = false := by
  induction n using Nat.strongRecOn with
  | _ n ih =>
    rw [hexOf]
    split
    · rename_i h
      intro b hb
      rw [List.mem_singleton.1 hb]
      exact hexChar_other n h
    · intro b hb
      rcases List.mem_append.1 hb with hb | hb
      · exact ih (n / 16) (by omega) b hb
      · rw [List.mem_singleton.1 hb]
        exact hexChar_other _ (Nat.mod_lt _ (by decide))

theorem hexOf_ne (n : Nat) : hexOf n ≠ [] := by
  rw [hexOf]
  split <;> simp

theorem hexDigits_snoc (bound : Nat) (b : UInt8) : ∀ (s : List UInt8) (acc : Nat),
    hexDigits bound acc (s ++ [b]) = (hexDigits bound acc s).bind fun n => hexDigits bound n [b]
  | [], acc => rfl
  | x :: t, acc => by
    simp only [List.cons_append, hexDigits]
    cases hexDigit x with
    | none => rfl
    | some d =>
      simp only
      split
      · rw [hexDigits_snoc bound b t]; rfl
      · rfl

theorem hexDigits_hexOf (bound : Nat) (n : Nat) (h : n < bound) : hexDigits bound 0 (hexOf n) = some n := by
  induction n using Nat.strongRecOn with
  | _ n ih =>
    rw [hexOf]
    split
    · rename_i h16
      simp only [hexDigits, hexChar_digit n h16, Nat.zero_mul, Nat.zero_add, if_pos h]
    · rename_i h16
      rw [hexDigits_snoc, ih (n / 16) (by omega) (by omega)]
      simp only [Option.bind_some, hexDigits, hexChar_digit _ (Nat.mod_lt n (show 16 > 0 by decide))]
      rw [show n / 16 * 16 + n % 16 = n by omega, if_pos h]

theorem parseHex_hexOf (bound n : Nat) (h : n < bound) : parseHex bound (hexOf n) = some n := by
  unfold parseHex
  have h43 : (hexOf n).headD 0 ≠ 43 := by
    cases e : hexOf n with
    | nil => exact absurd e (hexOf_ne n)
    | cons b t => exact (hexOf_other n b (by rw [e]; simp)).1
  simp only [if_neg h43, if_neg (hexOf_ne n)]
  exact hexDigits_hexOf bound n h

/-- The number that digits stand for. -/
def valueOf (acc : Nat) (ds : List Nat) : Nat := ds.foldl (fun a d => a * 16 + d) acc

theorem valueOf_ge (ds : List Nat) : ∀ acc, acc ≤ valueOf acc ds := by
  induction ds with
  | nil => intro acc; exact Nat.le_refl acc
  | cons d t ih =>
    intro acc
    have := ih (acc * 16 + d)
    simp only [valueOf, List.foldl_cons] at this ⊢
    omega

theorem hexDigits_iff (bound n : Nat) : ∀ (s : List UInt8) (acc : Nat), acc < bound →
    (hexDigits bound acc s = some n ↔ ∃ ds, s.map hexDigit = ds.map some ∧ n = valueOf acc ds ∧ n < bound) := by
  intro s
  induction s with
  | nil =>
    intro acc h
    simp only [hexDigits, List.map_nil, Option.some.injEq]
    constructor
    · rintro rfl; exact ⟨[], rfl, rfl, h⟩
    · rintro ⟨ds, h1, h2, -⟩
      have : ds = [] := List.map_eq_nil_iff.1 h1.symm
      subst this
      exact h2.symm
  | cons b t ih =>
    intro acc h
    simp only [hexDigits, List.map_cons]
    cases hd : hexDigit b with
    | none =>
      simp only [reduceCtorEq, false_iff]
      rintro ⟨ds, h1, -⟩
      cases ds with
      | nil => cases h1
      | cons d ds => simp at h1
    | some d =>
      simp only
      by_cases hlt : acc * 16 + d < bound
      · rw [if_pos hlt, ih _ hlt]
        constructor
        · rintro ⟨ds, h1, h2, h3⟩
          exact ⟨d :: ds, by rw [h1]; rfl, h2, h3⟩
        · rintro ⟨ds, h1, h2, h3⟩
          cases ds with
          | nil => cases h1
          | cons e ds =>
            simp only [List.map_cons, List.cons.injEq, Option.some.injEq] at h1
            obtain ⟨rfl, h1⟩ := h1
            exact ⟨ds, h1, h2, h3⟩
      · rw [if_neg hlt]
        simp only [reduceCtorEq, false_iff]
        rintro ⟨ds, h1, h2, h3⟩
        cases ds with
        | nil => cases h1
        | cons e ds =>
          simp only [List.map_cons, List.cons.injEq, Option.some.injEq] at h1
          obtain ⟨rfl, h1⟩ := h1
          have := valueOf_ge ds (acc * 16 + d)
          have e : valueOf acc (d :: ds) = valueOf (acc * 16 + d) ds := rfl
          omega

/-- **C99, the numbers.**  A text is read as a number exactly if it consists of digits, at least one, of either case, perhaps with a
plus sign in front, and what they stand for is in range. -/
theorem parseHex_iff {bound : Nat} (hb : 0 < bound) (s : List UInt8) (n : Nat) :
    parseHex bound s = some n ↔
      ∃ t ds, (s = t ∨ s = 43 :: t) ∧ t ≠ [] ∧ t.map hexDigit = ds.map some ∧ n = valueOf 0 ds ∧ n < bound := by
  have h43 : hexDigit 43 = none := by decide
  have key : ∀ t : List UInt8, ((if t = [] then none else hexDigits bound 0 t) = some n ↔
      t ≠ [] ∧ ∃ ds, t.map hexDigit = ds.map some ∧ n = valueOf 0 ds ∧ n < bound) := by
    intro t
    by_cases ht : t = []
    · simp [ht]
    · rw [if_neg ht, hexDigits_iff bound n t 0 hb]
      simp [ht]
  unfold parseHex
  simp only [key]
  by_cases hs : s.headD 0 = 43
  · rw [if_pos hs]
    cases s with
    | nil => exact absurd hs (by decide)
    | cons b t =>
      have hb43 : b = 43 := hs
      subst hb43
      rw [List.tail_cons]
      constructor
      · rintro ⟨h1, ds, h2⟩
        exact ⟨t, ds, Or.inr rfl, h1, h2⟩
      · rintro ⟨t', ds, h | h, h1, h2, h3⟩
        · subst h
          rw [List.map_cons, h43] at h2
          cases ds with
          | nil => cases h2
          | cons d ds => simp at h2
        · simp only [List.cons.injEq, true_and] at h
          subst h
          exact ⟨h1, ds, h2, h3⟩
  · rw [if_neg hs]
    constructor
    · rintro ⟨h1, ds, h2⟩
      exact ⟨s, ds, Or.inl rfl, h1, h2⟩
    · rintro ⟨t', ds, h | h, h1, h2, h3⟩
      · subst h
        exact ⟨h1, ds, h2, h3⟩
      · rw [h] at hs
        exact absurd rfl hs

/-- A line with a record. -/
def lineOf (sep : UInt8) (r : Nat × Nat) : List UInt8 := hexOf r.1 ++ sep :: hexOf r.2 ++ [10]

theorem dropWhile_none {l : List UInt8} (h : l ≠ []) (hh : ∀ b, l.head? = some b → isSpace b = false) : l.dropWhile isSpace = l := by
  cases l with
  | nil => exact absurd rfl h
  | cons b t => rw [List.dropWhile_cons_of_neg]; simp [hh b rfl]

theorem trim_lineOf (sep : UInt8) (r : Nat × Nat) : trim (lineOf sep r) = hexOf r.1 ++ sep :: hexOf r.2 := by
  unfold trim lineOf
  have h1 : (hexOf r.1 ++ sep :: hexOf r.2 ++ [10]).dropWhile isSpace = hexOf r.1 ++ sep :: hexOf r.2 ++ [10] := by
    refine dropWhile_none (by simp) fun b hb => ?_
    cases e : hexOf r.1 with
    | nil => exact absurd e (hexOf_ne _)
    | cons x t =>
      rw [e] at hb
      simp only [List.cons_append, List.head?_cons, Option.some.injEq] at hb
      exact (hexOf_other r.1 b (by rw [e, hb]; simp)).2.2.2
  rw [h1, List.reverse_append, List.reverse_singleton, List.singleton_append, List.dropWhile_cons_of_pos (by decide)]
  rw [dropWhile_none (by simp), List.reverse_reverse]
  intro b hb
  rw [List.head?_reverse, List.getLast?_append] at hb
  refine (hexOf_other r.2 b ?_).2.2.2
  have hne : hexOf r.2 ≠ [] := hexOf_ne _
  rw [List.getLast?_cons, List.getLast?_eq_some_getLast hne] at hb
  have hb' : (hexOf r.2).getLast hne = b := Option.some.inj hb
  rw [← hb']
  exact List.getLast_mem hne

theorem takeWhile_all {sep : UInt8} {l : List UInt8} (h : ∀ b ∈ l, b ≠ sep) (t : List UInt8) :
    (l ++ sep :: t).takeWhile (· != sep) = l ∧ (l ++ sep :: t).dropWhile (· != sep) = sep :: t ∧ l.takeWhile (· != sep) = l := by
  induction l with
  | nil => simp
  | cons b l ih =>
    have hb : (b != sep) = true := by simpa using h b (by simp)
    obtain ⟨h1, h2, h3⟩ := ih fun x hx => h x (by simp [hx])
    exact ⟨by simp only [List.cons_append, List.takeWhile_cons, hb, if_true, h1],
      by simp only [List.cons_append, List.dropWhile_cons, hb, if_true, h2], by simp only [List.takeWhile_cons, hb, if_true, h3]⟩

/-- **C99, the lines.**  Records written as pairs of hexadecimal numbers with a comma or a space between them are read as they were
written. -/
theorem lines_round_trip (recs : List (UInt8 × Nat × Nat)) (h : ∀ x ∈ recs, (x.1 = 44 ∨ x.1 = 32) ∧ x.2.1 < 2 ^ 64 ∧ x.2.2 < 256) :
    records true (recs.map fun x => .line (lineOf x.1 x.2)) = .ok (recs.map Prod.snd) := by
  induction recs with
  | nil => rfl
  | cons x t ih =>
    obtain ⟨sep, p, v⟩ := x
    obtain ⟨hsep, hp, hv⟩ : (sep = 44 ∨ sep = 32) ∧ p < 2 ^ 64 ∧ v < 256 := h (sep, p, v) (by simp)
    have hlen : ¬ (lineOf sep (p, v)).length ≤ 1 := by
      have := List.length_pos_iff.2 (hexOf_ne p)
      simp only [lineOf, List.length_append, List.length_cons, List.length_nil]
      omega
    have ht := takeWhile_all (sep := sep) (l := hexOf p) (fun b hb => by
      have := hexOf_other p b hb
      rcases hsep with rfl | rfl
      · exact this.2.1
      · exact this.2.2.1) (hexOf v)
    have hv' := takeWhile_all (sep := sep) (l := hexOf v) (fun b hb => by
      have := hexOf_other v b hb
      rcases hsep with rfl | rfl
      · exact this.2.1
      · exact this.2.2.1) []
    have hl : parseLine true (lineOf sep (p, v)) = .ok (p, v) := by
      unfold parseLine
      simp only [trim_lineOf]
      have hs : (if (44 : UInt8) ∈ hexOf p ++ sep :: hexOf v then (44 : UInt8) else 32) = sep := by
        rcases hsep with rfl | rfl
        · rw [if_pos (by simp)]
        · rw [if_neg]
          intro hm
          rcases List.mem_append.1 hm with hm | hm
          · exact (hexOf_other p _ hm).2.1 rfl
          · rcases List.mem_cons.1 hm with hm | hm
            · exact absurd hm (by decide)
            · exact (hexOf_other v _ hm).2.1 rfl
      rw [hs, ht.1, ht.2.1, List.tail_cons, hv'.2.2]
      simp only [number, if_true, parseHex_hexOf _ _ hp, parseHex_hexOf (2 ^ 8) v hv]
      rw [if_pos (by simp)]
    simp only [List.map_cons, records, if_neg hlen, hl, ih fun y hy => h y (by simp [hy])]

/-! ## The program -/

theorem choice_ne (speed : Option Speed) : choice speed ≠ [] := by
  cases speed <;> simp [choice, Args.named]

theorem choice_safe {speed : Option Speed} (h : ∀ sp, speed = some sp → SafeSpeed sp) : ∀ sp ∈ choice speed, SafeSpeed sp := by
  cases speed with
  | none => unfold SafeSpeed; decide
  | some s => intro sp hsp; simp only [choice, List.mem_singleton] at hsp; exact h sp (by rw [hsp])

theorem eval_real {order : List (Nat × List Nat) → List (Nat × List Nat)} (ho : ∀ l, (order l).Perm l) (speed : Option Speed)
    {isHex : Bool} {src : List Get} {rs : List (Nat × Nat)} (hr : records isHex src = .ok rs) :
    evalStream real order speed isHex src =
      .ok (∑ p ∈ (rs.map Prod.fst).toFinset, costOf (choice speed) (valuesOf p rs)) := by
  unfold evalStream
  rw [hr]
  simp only [total_real (choice_ne speed)]
  congr 1
  rw [show real.zero = 0 from rfl, zero_add, ((ho (groups rs)).map _).sum_eq]
  obtain ⟨h1, h2⟩ := groups_spec rs
  have e : (groups rs).map (fun g => costOf (choice speed) g.2) =
      ((groups rs).map Prod.fst).map fun p => costOf (choice speed) (valuesOf p rs) := by
    rw [List.map_map]
    refine List.map_congr_left fun g hg => ?_
    rw [Function.comp, ((h2 g.1 g.2).1 hg).1]
  rw [e, ← List.sum_toFinset _ h1]
  congr 1
  ext p
  simp only [List.mem_toFinset, List.mem_map]
  constructor
  · rintro ⟨⟨q, vs⟩, hg, rfl⟩
    obtain ⟨e1, e2⟩ := (h2 q vs).1 hg
    rw [e1] at e2
    obtain ⟨v, hv⟩ := List.exists_mem_of_ne_nil _ e2
    simp only [valuesOf, List.mem_map, List.mem_filter, beq_iff_eq] at hv
    obtain ⟨r, ⟨hr, hq⟩, -⟩ := hv
    exact ⟨r, hr, hq⟩
  · rintro ⟨r, hr, rfl⟩
    refine ⟨(r.1, valuesOf r.1 rs), (h2 _ _).2 ⟨rfl, ?_⟩, rfl⟩
    apply List.ne_nil_of_mem (a := r.2)
    simp only [valuesOf, List.mem_map, List.mem_filter, beq_iff_eq]
    exact ⟨r, ⟨hr, rfl⟩, rfl⟩

/-- **C99.**  With real numbers, a safe speed or none given, and lines that can be read: whatever order the map is gone through in,
the program finds the sum, over the priors that occur, of the least number of bits for the upper halves and the least number of bits
for the lower halves of the bytes recorded for the prior, over the speeds tried.  The sum is not negative. -/
theorem estimate_spec {order : List (Nat × List Nat) → List (Nat × List Nat)} (ho : ∀ l, (order l).Perm l) {speed : Option Speed}
    (hsafe : ∀ sp, speed = some sp → SafeSpeed sp) {isHex : Bool} {src : List Get} {rs : List (Nat × Nat)}
    (hr : records isHex src = .ok rs) :
    ∃ cost : Nat → ℝ, (∀ p, StreamCost (choice speed) (valuesOf p rs) (cost p) ∧ 0 ≤ cost p) ∧
      evalStream real order speed isHex src = .ok (∑ p ∈ (rs.map Prod.fst).toFinset, cost p) ∧
      0 ≤ ∑ p ∈ (rs.map Prod.fst).toFinset, cost p := by
  have k := fun p => costOf_spec (choice_ne speed) (choice_safe hsafe) (valuesOf_lt (records_lt hr) p)
  exact ⟨fun p => costOf (choice speed) (valuesOf p rs), k, eval_real ho speed hr, Finset.sum_nonneg fun p _ => (k p).2⟩

/-- **C99, the order does not matter.**  Two inputs in which every prior has the same values in the same order, mixed in different
ways, have the same estimate, also when the map is gone through in different orders. -/
theorem estimate_mixed {order order' : List (Nat × List Nat) → List (Nat × List Nat)} (ho : ∀ l, (order l).Perm l)
    (ho' : ∀ l, (order' l).Perm l) (speed : Option Speed) {isHex : Bool} {src src' : List Get} {rs rs' : List (Nat × Nat)}
    (hr : records isHex src = .ok rs) (hr' : records isHex src' = .ok rs') (h : ∀ p, valuesOf p rs = valuesOf p rs') :
    evalStream real order speed isHex src = evalStream real order' speed isHex src' := by
  unfold evalStream
  rw [hr, hr']
  simp only [total_real (choice_ne speed)]
  have hp := ((ho (groups rs)).trans (groups_perm h)).trans (ho' (groups rs')).symm
  rw [(hp.map _).sum_eq]

/-- **C99, trying all speeds.**  Without a speed the estimate is not higher than with any of the named speeds. -/
theorem estimate_trial {order : List (Nat × List Nat) → List (Nat × List Nat)} (ho : ∀ l, (order l).Perm l) {name : List UInt8}
    {sp : Speed} (hsp : (name, sp) ∈ Args.named) {isHex : Bool} {src : List Get} {x y : ℝ}
    (hx : evalStream real order none isHex src = .ok x) (hy : evalStream real order (some sp) isHex src = .ok y) : x ≤ y := by
  cases hr : records isHex src with
  | err => unfold evalStream at hx; rw [hr] at hx; cases hx
  | panic => unfold evalStream at hx; rw [hr] at hx; cases hx
  | ok rs =>
    rw [eval_real ho _ hr] at hx hy
    simp only [Res.ok.injEq] at hx hy
    rw [← hx, ← hy]
    refine Finset.sum_le_sum fun p _ => ?_
    have hm : sp ∈ choice none := List.mem_map.2 ⟨_, hsp, rfl⟩
    have s0 : ∀ s ∈ choice none, SafeSpeed s := choice_safe (by simp)
    have s1 : ∀ s ∈ choice (some sp), SafeSpeed s := choice_safe fun s e => by
      cases e; exact s0 sp hm
    have hv := valuesOf_lt (records_lt hr) p
    obtain ⟨⟨h, l, ⟨-, h1⟩, ⟨-, h2⟩, e⟩, -⟩ := costOf_spec (choice_ne none) s0 hv
    obtain ⟨⟨h', l', ⟨⟨a, ha, h1'⟩, -⟩, ⟨⟨b, hb, h2'⟩, -⟩, e'⟩, -⟩ := costOf_spec (choice_ne (some sp)) s1 hv
    simp only [choice, List.mem_singleton] at ha hb
    subst ha
    subst hb
    rw [e, e', h1', h2']
    exact add_le_add (h1 _ hm) (h2 _ hm)

/-- **C99, the arguments.**  They are accepted exactly if each of them is a speed, and the last one counts. -/
theorem speedArg_iff (x : Option Speed) : ∀ args : List (List UInt8),
    speedArg args = some x ↔ ∃ sps : List Speed, args.map Args.parseSpeed = sps.map some ∧ x = sps.getLast?
  | [] => by
    simp only [speedArg, Option.some.injEq, List.map_nil]
    constructor
    · rintro rfl; exact ⟨[], rfl, rfl⟩
    · rintro ⟨sps, h, rfl⟩
      rw [List.map_eq_nil_iff.1 h.symm]
      rfl
  | [s] => by
    simp only [speedArg, Option.map_eq_some_iff, List.map_cons, List.map_nil]
    constructor
    · rintro ⟨a, h, rfl⟩; exact ⟨[a], by rw [h]; rfl, rfl⟩
    · rintro ⟨sps, h, rfl⟩
      match sps, h with
      | [a], h => exact ⟨a, by simpa using h, rfl⟩
      | _ :: _ :: _, h => simp at h
  | s :: t :: u => by
    simp only [speedArg, Option.bind_eq_some_iff]
    rw [speedArg_iff x (t :: u)]
    constructor
    · rintro ⟨a, h, sps, h1, rfl⟩
      refine ⟨a :: sps, by rw [List.map_cons, h, h1]; rfl, ?_⟩
      cases sps with
      | nil => cases h1
      | cons b sps => rw [List.getLast?_cons_cons]
    · rintro ⟨sps, h, rfl⟩
      match sps, h with
      | a :: b :: sps, h =>
        simp only [List.map_cons, List.cons.injEq] at h
        exact ⟨a, h.1, b :: sps, by simpa using h.2, by rw [List.getLast?_cons_cons]⟩
      | [_], h => simp at h

/-- **C99 fails for input with an empty line**: it is taken as the end, and what follows is ignored without an error. -/
theorem empty_line_ends (isHex : Bool) (s : List UInt8) (hs : s.length ≤ 1) (t : List Get) : ∀ a : List Get,
    records isHex (a ++ .line s :: t) = records isHex a
  | [] => by simp [records, hs]
  | .interrupted :: a => empty_line_ends isHex s hs t a
  | .fail :: _ => rfl
  | .line x :: a => by
    simp only [List.cons_append, records, empty_line_ends isHex s hs t a]

/-- **C99 fails for speeds that the program accepts**: after three values there is a probability below zero, of which the program takes
the logarithm. -/
theorem accepted_speed_no_number : ∃ arg sp, speedArg [arg] = some (some sp) ∧ ∃ vs : List Nat, (∀ v ∈ vs, v < 256) ∧ highChance sp vs < 0 := by
  refine ⟨[49, 54, 51, 56, 51, 44, 49, 54, 51, 56, 52], ⟨16383, 16384⟩, by decide +kernel, [0, 0, 0, 240], by decide, ?_⟩
  decide +kernel

/-! ## The theorems are not vacuous -/

/-- Three records for two priors, on lines with comma and space. -/
example : records true [.line [49, 97, 44, 70, 70, 10], .interrupted, .line [48, 32, 48, 13, 10], .line [49, 65, 44, 48, 49]] =
    .ok [(26, 255), (0, 0), (26, 1)] := by decide +kernel
example : groups [(26, 255), (0, 0), (26, 1)] = [(26, [255, 1]), (0, [0])] := by decide
example : valuesOf 26 [(26, 255), (0, 0), (26, 1)] = valuesOf 26 [(0, 0), (26, 255), (26, 1)] := by decide
example : hexOf 26 = [49, 97] := by
  rw [hexOf, if_neg (by decide), hexOf, if_pos (by decide)]
  decide

/-- A line without a value is a panic, a value above 255 an error; a line without anything is the end. -/
example : records true [.line [49, 97, 10]] = .panic := by decide +kernel
example : records true [.line [49, 44, 49, 70, 70, 10]] = .err := by decide +kernel
example : records true [.line [49, 44, 50, 10], .line [10], .line [49, 44, 51, 10]] = .ok [(1, 2)] := by decide +kernel

/-- A number with a plus sign and digits of both cases. -/
example : parseHex 256 [43, 97, 70] = some 175 := by decide

/-- The probability of two bytes. -/
example : highChance ⟨0x10, 0x2000⟩ [255, 1] = 4 / 64 * (4 / 80) ∧ lowChance ⟨0x10, 0x2000⟩ [17, 17] = 4 / 64 * (20 / 80) := by
  decide +kernel

/-- The last argument counts, and all have to be speeds. -/
example : speedArg [b!"MUD", b!"FAST"] = some (some ⟨0x60, 0x4000⟩) ∧ speedArg [b!"MUDD", b!"FAST"] = none ∧ speedArg [] = some none := by
  decide +kernel

end Divans.Estimate
