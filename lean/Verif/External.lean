import Verif.CdfProps
import Mathlib.Data.Rat.Floor

/-!
# A distribution from probabilities that are given from outside

`/repo/src/probability/external_cdf.rs`, behind the feature `external-literal-probability`: a literal comes with eight bytes for each
of its bytes, one for each bit.  Floating point numbers are replaced by rational ones, so that rounding is left out.
-/

namespace Divans.External
open Divans.Cdf Divans.Num

/-- `Prob::max_value()`: what `max()` returns, `/repo/src/probability/external_cdf.rs:79-81`. -/
def maxProb : Int := 32767

/-- What a byte gives to a one, `/repo/src/probability/external_cdf.rs:30`. -/
def ofByte (b : UInt8) : ℚ := (b.toNat : ℚ) / 255

/-- The four bytes for a nibble. -/
abbrev Probs := Fin 4 → UInt8

/-- `pcdf` after the first loop, `/repo/src/probability/external_cdf.rs:26-39`: the product over the bits, the highest first. -/
def outside (q : Probs) (n : Nat) : ℚ :=
  ([0, 1, 2, 3] : List (Fin 4)).foldl (fun acc bit => acc * if n.testBit (3 - bit.val) then ofByte (q bit) else 1 - ofByte (q bit)) 1

/-- `mcdf`, `/repo/src/probability/external_cdf.rs:40-49`: it begins as all ones, and the loop begins at 1. -/
def inside (mix : Cdf) (n : Nat) : ℚ :=
  if n = 0 then 1 else ((get mix n : ℚ) - (get mix (n - 1) : ℚ)) / (Cdf.max mix : ℚ)

/-- `/repo/src/probability/external_cdf.rs:50-52`. -/
def both (q : Probs) (mix : Cdf) (n : Nat) : ℚ := (outside q n + inside mix n) / 2

/-- `sum` after so many rounds, `/repo/src/probability/external_cdf.rs:53-57`. -/
def sums (q : Probs) (mix : Cdf) : Nat → ℚ
  | 0 => 0
  | k + 1 => sums q mix k + both q mix k

/-- `init`, `/repo/src/probability/external_cdf.rs:18-68`; the assertion in it is `checks`. -/
def init (q : Probs) (mix : Cdf) : Cdf := fun i =>
  min (Max.max ⌊sums q mix (i.val + 1) / sums q mix 16 * 32767⌋ 1) (maxProb - 1)

/-- The assertion in `init`, `/repo/src/probability/external_cdf.rs:47`. -/
def checks (mix : Cdf) : Prop := ∀ n, 1 ≤ n → n < 16 → inside mix n < 1

/-- `default`, `/repo/src/probability/external_cdf.rs:10-16`. -/
def empty : Cdf := fun _ => 0

/-- `div_by_max`, `/repo/src/probability/external_cdf.rs:73-75`. -/
def divByMax (v : Int) : Int := Int.tdiv v maxProb

/-- `sym_to_start_and_freq`, `/repo/src/probability/interface.rs:96-108`. -/
def range (c : Cdf) (sym : Nat) : Range := symRange divByMax c sym

/-- The symbol of `cdf_offset_to_sym_start_and_freq`, `/repo/src/probability/interface.rs:136-187`, with the other maximum. -/
def lookupSym (c : Cdf) (off : Int) : Nat := firstAbove c (i16 ((off * maxProb) >>> 15)) 15 0

/-- `cdf_offset_to_sym_start_and_freq`, `/repo/src/probability/interface.rs:136-198`. -/
def lookup (c : Cdf) (off : Int) : Nat × Range := (lookupSym c off, range c (lookupSym c off))

/-- The bytes of a literal's probabilities that belong to a nibble, `/repo/src/codec/literal.rs:139-145`; `none`: they are missing,
and the distribution stays `empty`. -/
def bytesFor (probs : List UInt8) (nibbleIndex : Nat) : Option Probs :=
  let en := nibbleIndex / 2 * 8 + (if nibbleIndex % 2 = 0 then 4 else 0) + 4
  if en ≤ probs.length then some fun i => probs.getD (en - 4 + i.val) 0 else none

/-- The distribution of `ecdf_write_nibble`, `/repo/src/codec/literal.rs:128-152`; it is called with `Cdf16::default()`. -/
def forNibble (probs : List UInt8) (nibbleIndex : Nat) : Cdf :=
  match bytesFor probs nibbleIndex with
  | some q => init q Cdf.default
  | none => empty

end Divans.External
