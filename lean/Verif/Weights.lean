import Verif.Cdf

/-
Model of the adaptive mixing weights (/repo/src/codec/weights.rs) and of the 8-bit float format of
adaptation speeds (/repo/src/probability/interface.rs:566-585).
-/
namespace Divans.Weights
open Divans.Num

/-- `Weights`, /repo/src/codec/weights.rs:4-8 (`mixing_param` only enables mixing; it does not enter
the arithmetic: `_speed` is unused). -/
structure Weights where
  w0 : Int
  w1 : Int
  norm : Int
deriving DecidableEq, Repr

/-- `Weights::new`, /repo/src/codec/weights.rs:15-21. -/
def Weights.new : Weights := ⟨1, 1, 2 ^ 14⟩

/-- `fix_weights`, /repo/src/codec/weights.rs:64-73 (weights are non-negative where it is called). -/
def fixWeights (w0 w1 : Int) : Int × Int :=
  let ilog := 32 - min (Cdf.clz32 w0) (Cdf.clz32 w1)
  if 24 ≤ ilog then (w0 >>> (ilog - 24), w1 >>> (ilog - 24)) else (w0, w1)

/-- `normalize_weights`, /repo/src/codec/weights.rs:75-80.  The mask `0x7f000000` selects bits 24..30
of the bitwise or: some bit of either weight at position 24 to 30. -/
def normalizeWeights (w0 w1 : Int) : Int × Int :=
  if (w0.toNat ||| w1.toNat) &&& 0x7f000000 ≠ 0 then fixWeights w0 w1 else (w0, w1)

/-- Bit length of a positive `i64`: `64 - leading_zeros`. -/
def len64 (x : Int) : Nat := if x < 0 then 64 else bitLen x.toNat

/-- `compute_new_weight`, /repo/src/codec/weights.rs:108-136 (the integer version; the attribute
`cfg(features=...)` of the other one never holds). -/
def newWeight (n p wi : Int) : Int :=
  let error := i64 (2 ^ 15 - p)
  let efficacy := i64 (i64 (2 ^ 15 * n) - i64 (p * 2 ^ 15))
  let lg := len64 (i64 (p * i64 (2 ^ 15 - p)))
  let adj := i64 (error * efficacy) >>> lg
  if i32 (i64 (wi + adj)) ≤ 1 then 1 else i32 (i64 (wi + adj))

/-- `compute_normalized_weight`, /repo/src/codec/weights.rs:53-62. -/
def normWeight (w0 w1 : Int) : Int :=
  let total := w0 + w1
  let shift := len64 total - 8
  let total8 := ((total >>> shift) % 256).toNat
  let num := (u16 (u16 (w0 >>> shift) * 2 ^ 8)).toNat
  i16 (fastDivide8 num (lookupDivisor8 total8) * 2 ^ 7)

/-- `Weights::update`, /repo/src/codec/weights.rs:23-38. -/
def Weights.update (w : Weights) (probs : Int × Int) (p : Int) : Weights :=
  let n := normalizeWeights w.w0 w.w1
  let w0 := newWeight probs.1 p n.1
  let w1 := newWeight probs.2 p n.2
  ⟨w0, w1, normWeight w0 w1⟩

/-- The mixing rate handed to `average`: `norm_weight() as u16 as i32`,
/repo/src/codec/literal.rs:230. -/
def Weights.mixRate (w : Weights) : Int := u16 w.norm

/-- `speed_to_u8`, /repo/src/probability/interface.rs:566-575; `<<` on `i16` drops high bits,
`>>` is arithmetic; the result is `(length << 3) | mantissa as u8`. -/
def speedToU8 (data : Int) : Nat :=
  let length := if data < 0 then 16 else bitLen data.toNat
  let mantissa : Int :=
    if data ≠ 0 then i16 (i16 (data - i16 (2 ^ (length - 1))) * 8) >>> (length - 1) else 0
  (length * 8 % 256) ||| (mantissa % 256).toNat

/-- `u8_to_speed`, /repo/src/probability/interface.rs:577-585.  A shift by 16 or more is an overflow
(`none`).  `|` of two `i16` is computed on their 16-bit patterns. -/
def u8ToSpeed (data : Nat) : Option Int :=
  if data < 8 then some 0
  else
    let lg := data / 8 - 1
    if 16 ≤ lg then none
    else
      let rem := i16 ((data % 8 : Nat) * 2 ^ lg)
      some (i16 (((u16 (2 ^ lg)).toNat ||| (u16 (rem >>> 3)).toNat : Nat) : Int))

end Divans.Weights
