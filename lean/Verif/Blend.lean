import Verif.Cdf
import Mathlib.Logic.Function.Basic

/-
Model of the distribution of builds with the feature `blend`:
/repo/src/probability/blend_cdf.rs, chosen at /repo/src/interface.rs:146-147.
-/
namespace Divans.Blend
open Divans.Num
open Divans.Cdf (Cdf Range)

/-- `CDF_MAX`, /repo/src/probability/interface.rs:429. -/
def cdfMax : Int := 32767

/-- `BlendCDF16`, /repo/src/probability/blend_cdf.rs:109-114. -/
structure St where
  cdf : Cdf
  mixRate : Int
  count : Int

/-- `BlendCDF16::default`, /repo/src/probability/blend_cdf.rs:128-136. -/
def St.default : St := ⟨fun _ => 0, 2 ^ 10 + 2 ^ 9, 0⟩

/-- `mul_blend`, /repo/src/probability/blend_cdf.rs:15-54; the `i32` arithmetic stays within its type for the values the
theorems allow. -/
def mulBlend (baseline toBlend : Cdf) (blend bias : Int) : Cdf := fun i =>
  i16 ((toBlend i * blend + (baseline i * (2 ^ 15 - blend) + bias)) >>> 15)

/-- `to_blend_lut`, /repo/src/probability/blend_cdf.rs:87-108. -/
def toBlendLut (sym : Nat) : Cdf := fun i => if sym ≤ i.val then cdfMax - 16 else 0

/-- `blend_internal`, /repo/src/probability/blend_cdf.rs:117-126, without the debug assertion.  `& 0xf` is the remainder by
sixteen, also of negative numbers. -/
def St.blendInternal (s : St) (toBlend : Cdf) (mixRate : Int) : St :=
  let c := mulBlend s.cdf toBlend mixRate ((s.count % 16) * 2 ^ 11)
  if c 15 < i16 ((cdfMax - 16) - (c 15) >>> 1) then { s with cdf := fun i => i16 (c i + (c i) >>> 1) }
  else { s with cdf := c }

/-- `CDF16::blend`, /repo/src/probability/blend_cdf.rs:186-207.  The speed is looked at and not used. -/
def St.blend (s : St) (sym : Nat) : St :=
  let s1 : St := { s with count := i32 (s.count + 1) }
  let s2 := s1.blendInternal (toBlendLut sym) s1.mixRate
  { s2 with mixRate := s2.mixRate - s2.mixRate >>> 7 }

/-- `CDF16::average`, /repo/src/probability/blend_cdf.rs:181-185. -/
def St.average (s other : St) (mixRate : Int) : St := s.blendInternal other.cdf mixRate

/-- `BaseCDF::cdf`, /repo/src/probability/blend_cdf.rs:159-169, for symbols below 16; without the debug assertion. -/
def get (c : Cdf) (sym : Nat) : Int :=
  if sym = 15 then cdfMax
  else
    let bias := i16 (cdfMax - c 15)
    i16 (Cdf.get c sym + i16 ((bias * ((sym : Int) + 1)) >>> 4))

/-- `div_by_max`, /repo/src/probability/blend_cdf.rs:156-158: a shift by `log_max`, 15. -/
def divByMax (v : Int) : Int := v >>> 15

/-- The division of builds with the feature `avoid-divide`, by `max`, 32767: `lookup_divisor(self.max())`,
/repo/src/probability/interface.rs:139-140, 118-133. -/
def divHint (v : Int) : Int := fastDivide v (lookupDivisor cdfMax)

/-- `sym_to_start_and_freq`, /repo/src/probability/interface.rs:96-108; with another division
`sym_to_start_and_freq_with_div_hint`, 116-133. -/
def symRange (div : Int → Int) (c : Cdf) (sym : Nat) : Range :=
  let cdfSym := div (get c sym <<< 15)
  let cdfPrev := if sym ≠ 0 then div (get c (sym - 1) <<< 15) else 0
  let freq := cdfSym - cdfPrev
  ⟨i16 (i16 cdfPrev + 1), i16 (i16 freq - 1)⟩

/-- The chain of comparisons, /repo/src/probability/interface.rs:152-187. -/
def firstAbove (g : Nat → Int) (r : Int) : Nat → Nat → Nat
  | 0, s => s
  | n + 1, s => if r < g s then s else firstAbove g r n (s + 1)

/-- The symbol of `cdf_offset_to_sym_start_and_freq`, /repo/src/probability/interface.rs:136-187. -/
def lookupSym (c : Cdf) (off : Int) : Nat := firstAbove (get c) (i16 ((off * cdfMax) >>> 15)) 15 0

/-- `cdf_offset_to_sym_start_and_freq`, /repo/src/probability/interface.rs:136-198.  `hint` is the division for all symbols
but the first: `divByMax` without the feature `avoid-divide`, `divHint` with it. -/
def lookup (hint : Int → Int) (c : Cdf) (off : Int) : Nat × Range :=
  if lookupSym c off = 0 then (0, symRange divByMax c 0)
  else (lookupSym c off, symRange hint c (lookupSym c off))

/-- What a distribution has learnt from the symbols coded so far. -/
def learnt (hist : List Nat) : St := hist.foldl St.blend .default

/-- The distributions of a session after some nibbles: `rule` says which one codes the next nibble, given those before it. -/
def models {κ : Type} [DecidableEq κ] (rule : List Nat → κ) : List Nat → List Nat → (κ → St) → κ → St
  | _, [], m => m
  | past, n :: t, m => models rule (past ++ [n]) t (Function.update m (rule past) ((m (rule past)).blend n))

end Divans.Blend
