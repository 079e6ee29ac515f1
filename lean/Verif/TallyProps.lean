import Verif.Tally
import Verif.AnsLemmas
import Mathlib.Tactic.Linarith
import Mathlib.Tactic.NormNum
import Mathlib.Tactic.Ring
import Mathlib.Tactic.Positivity

/-!
# C101: the optimizer chooses the coding that is more probable

`chance` is the specification: the product of the parts of 2^15 that the ranges of the nibbles have.
-/

namespace Divans.Tally

/-- What the nibbles are given: the product of their parts of 2^15. -/
def chance (ns : List Nibble) : ℚ := (ns.map fun n => (n.range.toSlot.freq : ℚ) / 2 ^ 15).prod

/-- Every nibble has a range that can be coded. -/
def AllValid (ns : List Nibble) : Prop := ∀ n ∈ ns, n.range.toSlot.Valid

/-- The cost in bits of something with this probability. -/
noncomputable def bits (q : ℚ) : ℝ := -Real.logb 2 (q : ℝ)

theorem chance_pos (ns : List Nibble) (h : AllValid ns) : 0 < chance ns := by
  refine List.prod_pos fun x hx => ?_
  obtain ⟨n, hn, rfl⟩ := List.mem_map.1 hx
  have : (1 : ℚ) ≤ (n.range.toSlot.freq : ℚ) := by exact_mod_cast (h n hn).1
  positivity

theorem chance_le (ns : List Nibble) (h : AllValid ns) : chance ns ≤ 1 := by
  induction ns with
  | nil => simp [chance]
  | cons n t ih =>
    have ih' := ih fun m hm => h m (List.mem_cons_of_mem _ hm)
    have hp := chance_pos t fun m hm => h m (List.mem_cons_of_mem _ hm)
    have h1 : (n.range.toSlot.freq : ℚ) ≤ 2 ^ 15 := by exact_mod_cast (h n List.mem_cons_self).2.1.le
    have h2 : (n.range.toSlot.freq : ℚ) / 2 ^ 15 ≤ 1 := by rw [div_le_one (by positivity)]; exact h1
    have e : chance (n :: t) = (n.range.toSlot.freq : ℚ) / 2 ^ 15 * chance t := by simp [chance]
    rw [e]
    exact mul_le_one₀ h2 hp.le ih'

theorem tally_bits (r : Cdf.Range) (h1 : 1 ≤ r.toSlot.freq) :
    15 - Real.logb 2 (Num.u16 r.freq) = bits ((r.toSlot.freq : ℚ) / 2 ^ 15) := by
  have e : ((r.toSlot.freq : Nat) : Int) = Num.u16 r.freq := by
    show ((Num.u16 r.freq).toNat : Int) = _
    have : 0 ≤ Num.u16 r.freq := by unfold Num.u16; omega
    omega
  have hf : (r.toSlot.freq : ℝ) ≠ 0 := by exact_mod_cast (by omega : r.toSlot.freq ≠ 0)
  rw [← e]
  unfold bits
  push_cast
  rw [Real.logb_div hf (by positivity), Real.logb_pow, Real.logb_self_eq_one (by norm_num)]
  push_cast
  ring

theorem bits_mul {p q : ℚ} (hp : 0 < p) (hq : 0 < q) : bits (p * q) = bits p + bits q := by
  unfold bits
  rw [Rat.cast_mul, Real.logb_mul (by exact_mod_cast hp.ne') (by exact_mod_cast hq.ne')]
  ring

theorem bits_lt {p q : ℚ} (hp : 0 < p) (hq : 0 < q) : bits p < bits q ↔ q < p := by
  unfold bits
  rw [neg_lt_neg_iff, Real.logb_lt_logb_iff (by norm_num) (by exact_mod_cast hq) (by exact_mod_cast hp)]
  exact_mod_cast Iff.rfl

theorem code_total (a : Actuary) (l : Counter) (h : a.lit = some l) (n : Nibble) :
    (a.code n).total = a.total + (15 - Real.logb 2 (Num.u16 n.range.freq)) := by
  unfold Actuary.code Actuary.total
  cases n.lit <;> simp [h, Counter.tally] <;> ring

/-- The snapshots of both counters, which coding leaves alone. -/
def Actuary.snaps (a : Actuary) : ℝ × Option ℝ := (a.cmd.snapshot, a.lit.map Counter.snapshot)

theorem code_snaps (a : Actuary) (n : Nibble) : (a.code n).snaps = a.snaps := by
  unfold Actuary.code Actuary.snaps
  split <;> cases a.lit <;> simp [Counter.tally]

theorem run_snaps (ns : List Nibble) : ∀ a : Actuary, (a.run ns).snaps = a.snaps := by
  induction ns with
  | nil => intro a; rfl
  | cons n t ih => intro a; exact (ih (a.code n)).trans (code_snaps a n)

theorem code_some (a : Actuary) (n : Nibble) (h : a.lit.isSome) : (a.code n).lit.isSome := by
  unfold Actuary.code
  split <;> simp [h]

/-- **C101, the total.**  Coding nibbles of both coders, in any order, raises the total by the number of bits of their probability. -/
theorem total_spec (ns : List Nibble) (hv : AllValid ns) : ∀ a : Actuary, a.lit.isSome → (a.run ns).total = a.total + bits (chance ns) := by
  induction ns with
  | nil => intro a _; simp [Actuary.run, chance, bits]
  | cons n t ih =>
    intro a ha
    have hn := hv n List.mem_cons_self
    have ht : AllValid t := fun m hm => hv m (List.mem_cons_of_mem _ hm)
    obtain ⟨l, hl⟩ := Option.isSome_iff_exists.1 ha
    have e : chance (n :: t) = (n.range.toSlot.freq : ℚ) / 2 ^ 15 * chance t := by simp [chance]
    have hp : (0 : ℚ) < (n.range.toSlot.freq : ℚ) / 2 ^ 15 := by
      have : (1 : ℚ) ≤ (n.range.toSlot.freq : ℚ) := by exact_mod_cast hn.1
      positivity
    have h1 := ih ht (a.code n) (code_some a n ha)
    have h2 := code_total a l hl n
    rw [tally_bits _ hn.1] at h2
    rw [e, bits_mul hp (chance_pos t ht)]
    show ((a.code n).run t).total = _
    rw [h1, h2]
    ring

/-- **C101, from the beginning**: the total is the number of bits of all that was coded. -/
theorem new_total (ns : List Nibble) (hv : AllValid ns) : (Actuary.new.run ns).total = bits (chance ns) := by
  rw [total_spec ns hv _ rfl]
  simp [Actuary.new, Actuary.total, Counter.new]

/-- **C101, costs are not negative.** -/
theorem bits_nonneg (ns : List Nibble) (hv : AllValid ns) : 0 ≤ bits (chance ns) := by
  have h1 := chance_pos ns hv
  have h2 := chance_le ns hv
  have := Real.logb_nonpos (b := 2) (by norm_num) (x := ((chance ns : ℚ) : ℝ)) (by exact_mod_cast h1.le) (by exact_mod_cast h2)
  unfold bits
  linarith

/-- What the snapshots amount to. -/
noncomputable def Actuary.base (a : Actuary) : ℝ := a.snaps.1 + a.snaps.2.getD 0

theorem delta_eq (a : Actuary) (h : a.lit.isSome) : a.delta = a.total - a.base := by
  obtain ⟨l, hl⟩ := Option.isSome_iff_exists.1 h
  simp [Actuary.delta, Actuary.total, Actuary.base, Actuary.snaps, hl, Counter.delta]
  ring

theorem run_some (ns : List Nibble) : ∀ a : Actuary, a.lit.isSome → (a.run ns).lit.isSome := by
  induction ns with
  | nil => intro a h; exact h
  | cons n t ih => intro a h; exact ih (a.code n) (code_some a n h)

/-- What resetting gives, from the snapshots alone. -/
theorem reset_eq (a b : Actuary) (h : a.snaps = b.snaps) : a.reset = b.reset := by
  obtain ⟨⟨s, c⟩, l⟩ := a
  obtain ⟨⟨s', c'⟩, l'⟩ := b
  cases l <;> cases l' <;> simp_all [Actuary.snaps, Actuary.reset, Counter.reset]

theorem take_reset (a : Actuary) : a.take.reset = a.take := by
  obtain ⟨⟨s, c⟩, l⟩ := a
  cases l <;> simp [Actuary.take, Actuary.reset, Counter.take, Counter.reset]

/-- **C101, a trial leaves no trace** but the snapshot. -/
theorem trial_reset (a : Actuary) (ns : List Nibble) : (a.take.run ns).reset = a.take :=
  (reset_eq _ _ (run_snaps ns a.take)).trans (take_reset a)

theorem take_total (a : Actuary) : a.take.total = a.total := by
  obtain ⟨c, l⟩ := a
  cases l <;> simp [Actuary.take, Actuary.total, Counter.take]

theorem take_base (a : Actuary) (h : a.lit.isSome) : a.take.base = a.total := by
  obtain ⟨l, hl⟩ := Option.isSome_iff_exists.1 h
  simp [Actuary.take, Actuary.total, Actuary.base, Actuary.snaps, hl, Counter.take]

/-- **C101, the difference** since the snapshot is the number of bits of what was coded since, whatever was coded before. -/
theorem delta_spec (a : Actuary) (h : a.lit.isSome) (ns : List Nibble) (hv : AllValid ns) :
    (a.take.run ns).delta = bits (chance ns) := by
  have hs : a.take.lit.isSome := by simp [Actuary.take, h]
  rw [delta_eq _ (run_some ns _ hs), total_spec ns hv _ hs, take_total]
  have : (a.take.run ns).base = a.take.base := by unfold Actuary.base; rw [run_snaps]
  rw [this, take_base a h]
  ring

/-- **C101.**  The copy is merged into the literal exactly when the combined literal is more probable than the literal and the copy, a
comparison of rational numbers that depends on nothing coded before; and the total is as it was. -/
theorem weigh_spec (a : Actuary) (h : a.lit.isSome) (combined separate : List Nibble) (hc : AllValid combined) (hs : AllValid separate) :
    ((weigh a combined separate).1 = true ↔ chance separate < chance combined) ∧
      (weigh a combined separate).2.total = a.total ∧ (weigh a combined separate).2 = a.take := by
  have e : (weigh a combined separate).2 = a.take := by
    unfold weigh
    simp only [trial_reset]
  refine ⟨?_, by rw [e, take_total], e⟩
  unfold weigh
  simp only [trial_reset, decide_eq_true_eq]
  rw [delta_spec a h combined hc, delta_spec a h separate hs, bits_lt (chance_pos _ hc) (chance_pos _ hs)]

/-- **C101 fails for single bits**: the parts are swapped.  A one is counted with what the coder gives to a zero, and the other way
round.  (No command is coded with single bits.) -/
theorem bit_swapped (p : UInt8) (h : 0 < p) : (bitRange true p).freq = ((Ans.bitSlot false p).freq : Int) - 1 ∧
    (bitRange false p).freq = ((Ans.bitSlot true p).freq : Int) - 129 := by
  have h0 : p ≠ 0 := by rintro rfl; exact absurd h (by decide)
  have h1 := p.toNat_lt
  simp [bitRange, Ans.bitSlot, h0, Ans.log2Scale, Nat.shiftLeft_eq]
  omega

/-- **C101 fails for single bits**: with a probability of 0 for a zero, which the coder takes as 1, a one has a cost below zero.  (No
command is coded with single bits.) -/
theorem bit_below_zero (t : Counter) : (t.tally (bitRange true 0)).cost < t.cost := by
  have e : Num.u16 (bitRange true 0).freq = 65535 := by decide
  have : (15 : ℝ) < Real.logb 2 ((65535 : Int) : ℝ) := by
    rw [Real.lt_logb_iff_rpow_lt (by norm_num) (by norm_num)]
    norm_num
  simp only [Counter.tally, e]
  linarith

/-! ## The theorems are not vacuous -/

/-- One likely nibble against two that are not: merged. -/
example :
    (weigh Actuary.new [⟨true, ⟨1, 16384⟩⟩] [⟨true, ⟨1, 16384⟩⟩, ⟨false, ⟨5, 2048⟩⟩]).1 = true :=
  ((weigh_spec Actuary.new rfl _ _ (by intro n hn; simp at hn; subst hn; exact ⟨by decide, by decide, by decide⟩)
    (by intro n hn; simp at hn; rcases hn with rfl | rfl <;> exact ⟨by decide, by decide, by decide⟩)).1).2 (by norm_num [chance, Cdf.Range.toSlot, Num.u16, show Int.toNat 2048 = 2048 from rfl, show Int.toNat 16384 = 16384 from rfl])

/-- A half costs one bit, and a sixteenth four. -/
example : bits (chance [⟨true, ⟨1, 16384⟩⟩, ⟨false, ⟨5, 2048⟩⟩]) = 5 := by
  have : chance [⟨true, ⟨1, 16384⟩⟩, ⟨false, ⟨5, 2048⟩⟩] = 1 / 2 ^ 5 := by norm_num [chance, Cdf.Range.toSlot, Num.u16, show Int.toNat 2048 = 2048 from rfl, show Int.toNat 16384 = 16384 from rfl]
  rw [this, bits]
  push_cast
  rw [one_div, Real.logb_inv, Real.logb_pow, Real.logb_self_eq_one (by norm_num)]
  norm_num

end Divans.Tally
