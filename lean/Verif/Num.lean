import Verif.DivLut

/-
Model of the integer arithmetic used by the probability code: machine integer casts and
/repo/src/probability/numeric.rs.
-/
namespace Divans.Num

/-- `x as i16`, and the result of wrapping `i16` arithmetic. -/
def i16 (x : Int) : Int := (x + 2 ^ 15) % 2 ^ 16 - 2 ^ 15

/-- `x as i32`. -/
def i32 (x : Int) : Int := (x + 2 ^ 31) % 2 ^ 32 - 2 ^ 31

/-- `x as i64`. -/
def i64 (x : Int) : Int := (x + 2 ^ 63) % 2 ^ 64 - 2 ^ 63

/-- `x as u16`. -/
def u16 (x : Int) : Int := x % 2 ^ 16

/-- Number of bits of `d`: `16 - leading_zeros`, `k16bit_length`,
/repo/src/probability/numeric.rs:11-13. -/
def bitLen (d : Nat) : Nat := if d = 0 then 0 else Nat.log2 d + 1

/-- `LOG_MAX_NUMERATOR`, /repo/src/probability/numeric.rs:14. -/
def logMaxNumerator : Nat := 31

/-- `compute_divisor`, /repo/src/probability/numeric.rs:16-19, for `d` a 16-bit positive number
(the table generator uses `u16`).  `d = 0` divides by zero in the code: `none`. -/
def computeDivisor (d : Nat) : Option (Nat × Nat) :=
  if d = 0 then none
  else some (((2 ^ bitLen d - d) <<< logMaxNumerator) / d + 1, bitLen d - 1)

/-- `lookup_divisor`, /repo/src/probability/numeric.rs:22-24: `d as u16 as usize` indexes the
table. -/
def lookupDivisor (d : Int) : Nat × Nat := reciprocal (u16 d).toNat

/-- `fast_divide_30bit_by_16bit`, /repo/src/probability/numeric.rs:26-31; `>>` on signed numbers is
floor division. The additions of `i32` cannot overflow for the numerators covered by the theorems. -/
def fastDivide (num : Int) (inv : Nat × Nat) : Int :=
  let p := i64 ((inv.1 : Int) * num)
  i32 (i32 (p >>> logMaxNumerator) + (i32 (num - (p >>> logMaxNumerator))) >>> 1) >>> inv.2

/-- `compute_divisor8`, /repo/src/probability/numeric.rs:50-53. -/
def computeDivisor8 (d : Nat) : Option Nat := if d = 0 then none else some (1 + 2 ^ 24 / d)

/-- `lookup_divisor8`, /repo/src/probability/numeric.rs:55-57. -/
def lookupDivisor8 (d : Nat) : Nat := reciprocal8 d

/-- `fast_divide_16bit_by_8bit`, /repo/src/probability/numeric.rs:59-61. -/
def fastDivide8 (num : Nat) (inv : Nat) : Int := i16 (((inv * num) >>> 24 : Nat) : Int)

end Divans.Num
