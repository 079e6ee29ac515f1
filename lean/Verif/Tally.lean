import Verif.CdfProps
import Mathlib.Analysis.SpecialFunctions.Log.Base

/-!
# The coder that only counts bits

`/repo/src/ir_optimize/statistics_tracking_codec.rs:15-175` and the comparison in `should_merge`, `/repo/src/ir_optimize/mod.rs:70-110`:
instead of coding, a cost in bits is summed up.  `f32` is replaced by the real numbers, and the table behind `FastLog2u16` (of the
brotli crate) by the logarithm, so that rounding is left out.
-/

namespace Divans.Tally
open Divans.Num

/-- `TallyingArithmeticEncoder`, `/repo/src/ir_optimize/statistics_tracking_codec.rs:20-24`. -/
structure Counter where
  snapshot : ℝ
  cost : ℝ

/-- `default`, `/repo/src/ir_optimize/statistics_tracking_codec.rs:20`. -/
def Counter.new : Counter := ⟨0, 0⟩

/-- `take_snapshot`, `/repo/src/ir_optimize/statistics_tracking_codec.rs:27-29`. -/
def Counter.take (t : Counter) : Counter := { t with snapshot := t.cost }

/-- `snapshot_delta`, `/repo/src/ir_optimize/statistics_tracking_codec.rs:30-32`. -/
noncomputable def Counter.delta (t : Counter) : ℝ := t.cost - t.snapshot

/-- `reset_cost_to_snapshot`, `/repo/src/ir_optimize/statistics_tracking_codec.rs:33-35`. -/
def Counter.reset (t : Counter) : Counter := { t with cost := t.snapshot }

/-- `tally`, `/repo/src/ir_optimize/statistics_tracking_codec.rs:39-41`. -/
noncomputable def Counter.tally (t : Counter) (r : Cdf.Range) : Counter :=
  { t with cost := t.cost + (15 - Real.logb 2 (u16 r.freq)) }

/-- The range that `get_or_put_bit_without_billing` counts, `/repo/src/ir_optimize/statistics_tracking_codec.rs:67-86`. -/
def bitRange (bit : Bool) (p : UInt8) : Cdf.Range :=
  let prob : Int := if bit then p.toNat else 255 - p.toNat
  let start : Int := if bit then p.toNat else 0
  ⟨start * 128 - 1, prob * 128 - 1⟩

/-- The two counters of the codec that estimates: that of the commands, and with the context of the main thread that of the literals,
`/repo/src/ir_optimize/statistics_tracking_codec.rs:107-111`. -/
structure Actuary where
  cmd : Counter
  lit : Option Counter

/-- The codec as `ir_optimize` makes it, with both counters new, `/repo/src/ir_optimize/mod.rs:144-163`. -/
def Actuary.new : Actuary := ⟨Counter.new, some Counter.new⟩

/-- A nibble that is coded, with the range that `sym_to_start_and_freq` gives for it; `lit`: by the coder of the literals,
`/repo/src/ir_optimize/statistics_tracking_codec.rs:88-94`. -/
structure Nibble where
  lit : Bool
  range : Cdf.Range

/-- `get_or_put_nibble_without_billing` of one of the counters, `/repo/src/ir_optimize/statistics_tracking_codec.rs:88-94`.  Without the
context of the main thread no literal is coded here. -/
noncomputable def Actuary.code (a : Actuary) (n : Nibble) : Actuary :=
  if n.lit then { a with lit := a.lit.map (·.tally n.range) } else { a with cmd := a.cmd.tally n.range }

/-- Coding commands: the nibbles in their order, of both coders. -/
noncomputable def Actuary.run (a : Actuary) (ns : List Nibble) : Actuary := ns.foldl Actuary.code a

/-- `take_billing_snapshot`, `/repo/src/ir_optimize/statistics_tracking_codec.rs:114-130`. -/
def Actuary.take (a : Actuary) : Actuary := ⟨a.cmd.take, a.lit.map Counter.take⟩

/-- `reset_billing_snapshot`, `/repo/src/ir_optimize/statistics_tracking_codec.rs:96-112`. -/
def Actuary.reset (a : Actuary) : Actuary := ⟨a.cmd.reset, a.lit.map Counter.reset⟩

/-- `billing_snapshot_delta`, `/repo/src/ir_optimize/statistics_tracking_codec.rs:132-148`. -/
noncomputable def Actuary.delta (a : Actuary) : ℝ :=
  match a.lit with
  | none => a.cmd.delta
  | some l => a.cmd.delta + l.delta

/-- `total_billing_cost`, `/repo/src/ir_optimize/statistics_tracking_codec.rs:150-167`. -/
noncomputable def Actuary.total (a : Actuary) : ℝ :=
  match a.lit with
  | none => a.cmd.cost
  | some l => a.cmd.cost + l.cost

open Classical in
/-- The comparison of `should_merge`, `/repo/src/ir_optimize/mod.rs:70-110`: the nibbles of the combined literal, then those of the
literal and the copy.  Both are coded without errors, and no distribution is adapted meanwhile, so that the nibbles of the second do not
depend on those of the first. -/
noncomputable def weigh (a : Actuary) (combined separate : List Nibble) : Bool × Actuary :=
  let a1 := a.take.run combined
  let combinedCost := a1.delta
  let a2 := a1.reset.run separate
  let curCost := a2.delta
  (decide (combinedCost < curCost), a2.reset)

end Divans.Tally
