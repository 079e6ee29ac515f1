import Verif.Num
import Verif.Ans

/-
Model of the 16-symbol adaptive distributions: /repo/src/probability/interface.rs,
frequentist_cdf.rs and opt_frequentist_cdf.rs.  A distribution is the array of its sixteen `i16`
cumulative counts.
-/
namespace Divans.Cdf

open Divans.Num

/-- `FrequentistCDF16 { cdf: [Prob; 16] }`, /repo/src/probability/frequentist_cdf.rs:12-15. -/
abbrev Cdf := Fin 16 → Int

/-- `BaseCDF::cdf`, /repo/src/probability/frequentist_cdf.rs:41-43: the index is masked. -/
def get (c : Cdf) (sym : Nat) : Int := c ⟨sym % 16, Nat.mod_lt _ (by decide)⟩

/-- `BaseCDF::max`, /repo/src/probability/frequentist_cdf.rs:31-34. -/
def max (c : Cdf) : Int := c 15

/-- `FrequentistCDF16::default`, /repo/src/probability/frequentist_cdf.rs:17-23. -/
def default : Cdf := fun i => 4 * (i.val + 1)

/-- `Speed(inc, lim)`, /repo/src/probability/interface.rs:298-299. -/
structure Speed where
  inc : Int
  lim : Int
deriving DecidableEq, Repr

/-- `FrequentistCDF16::blend`, /repo/src/probability/frequentist_cdf.rs:74-85. -/
def blend (c : Cdf) (sym : Nat) (sp : Speed) : Cdf :=
  let c1 : Cdf := fun i => if sym ≤ i.val then i16 (c i + sp.inc) else c i
  if max c1 ≥ sp.lim then
    fun i => i16 (i16 (c1 i + (i.val + 1)) - (i16 (c1 i + (i.val + 1))) >>> 2)
  else c1

/-- A slot as computed by the distribution, before it is handed to the coder (`ProbRange`,
/repo/src/probability/interface.rs:22-26). -/
structure Range where
  start : Int
  freq : Int
deriving DecidableEq, Repr

/-- `start as u16`, `freq as u16` in `put_start_freq` (/repo/src/ans.rs:294-295); for the values the
theorems allow (non-negative) this is also `as u64` in the decoder (/repo/src/ans.rs:238). -/
def Range.toSlot (r : Range) : Ans.Slot := ⟨(u16 r.start).toNat, (u16 r.freq).toNat⟩

/-- `sym_to_start_and_freq`, /repo/src/probability/interface.rs:96-108, with the division as a
parameter.  `div_by_max` returns `i32`. -/
def symRange (div : Int → Int) (c : Cdf) (sym : Nat) : Range :=
  let cdfSym := div (get c sym <<< 15)
  let cdfPrev := if sym ≠ 0 then div (get c (sym - 1) <<< 15) else 0
  let freq := cdfSym - cdfPrev
  ⟨i16 (i16 cdfPrev + 1), i16 (i16 freq - 1)⟩

/-- `div_by_max` of the plain distribution, /repo/src/probability/frequentist_cdf.rs:35-38
(truncating `i32` division; a zero divisor, which panics in Rust, is excluded by the theorems). -/
def divByMax (c : Cdf) (v : Int) : Int := Int.tdiv v (max c)

/-- The if-chain of `cdf_offset_to_sym_start_and_freq`, /repo/src/probability/interface.rs:154-187:
the first of the symbols `s, s+1, ..` whose cumulative count exceeds `r`, and `s + n` if none of the
`n` tried does. -/
def firstAbove (c : Cdf) (r : Int) : Nat → Nat → Nat
  | 0, s => s
  | n + 1, s => if r < get c s then s else firstAbove c r n (s + 1)

/-- The symbol of `cdf_offset_to_sym_start_and_freq`, /repo/src/probability/interface.rs:136-187. -/
def lookupSym (c : Cdf) (off : Int) : Nat :=
  firstAbove c (i16 ((off * max c) >>> 15)) 15 0

/-- `cdf_offset_to_sym_start_and_freq`, /repo/src/probability/interface.rs:136-198. -/
def lookup (div : Int → Int) (c : Cdf) (off : Int) : Nat × Range :=
  (lookupSym c off, symRange div c (lookupSym c off))

/-- `i32::leading_zeros` of a non-negative `i32`. -/
def clz32 (x : Int) : Nat := 32 - bitLen x.toNat

/-- `FrequentistCDF16::average`, /repo/src/probability/frequentist_cdf.rs:57-72. -/
def average (self other : Cdf) (mixRate : Int) : Cdf :=
  let ourMax := max self
  let otherMax := max other
  let lz := min (clz32 (ourMax * otherMax)) 17
  let shift := 17 - lz
  let inv := 2 ^ 15 - mixRate
  fun i =>
    let rs := (self i * otherMax) >>> shift
    let ro := (other i * ourMax) >>> shift
    i16 ((rs * mixRate + ro * inv + 1) >>> 15)

/-- `OptFrequentistCDF16`, /repo/src/probability/opt_frequentist_cdf.rs:53-57. -/
structure Opt where
  cdf : Cdf
  inv : Nat × Nat

/-- `OptFrequentistCDF16::new`, /repo/src/probability/opt_frequentist_cdf.rs:59-65. -/
def Opt.new (c : Cdf) : Opt := ⟨c, lookupDivisor (max c)⟩

/-- `OptFrequentistCDF16::default`, /repo/src/probability/opt_frequentist_cdf.rs:68-72. -/
def Opt.default : Opt := Opt.new Cdf.default

/-- `OptFrequentistCDF16::div_by_max`, /repo/src/probability/opt_frequentist_cdf.rs:97-101. -/
def Opt.divByMax (o : Opt) (v : Int) : Int := fastDivide v o.inv

/-- `OptFrequentistCDF16::blend`, /repo/src/probability/opt_frequentist_cdf.rs:114-117. -/
def Opt.blend (o : Opt) (sym : Nat) (sp : Speed) : Opt :=
  let c := Cdf.blend o.cdf sym sp
  ⟨c, lookupDivisor (max c)⟩

/-- `OptFrequentistCDF16::average`, /repo/src/probability/opt_frequentist_cdf.rs:110-113. -/
def Opt.average (a b : Opt) (mixRate : Int) : Opt := Opt.new (Cdf.average a.cdf b.cdf mixRate)

/-- `sym_to_start_and_freq` of the production type. -/
def Opt.symRange (o : Opt) (sym : Nat) : Range := Cdf.symRange o.divByMax o.cdf sym

/-- `cdf_offset_to_sym_start_and_freq` of the production type. -/
def Opt.lookup (o : Opt) (off : Int) : Nat × Range := Cdf.lookup o.divByMax o.cdf off

end Divans.Cdf
