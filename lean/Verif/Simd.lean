import Verif.Adaptive
import Verif.Crc

/-
Model of what a build with the `simd` feature computes instead of the portable code:
/repo/src/probability/simd_frequentist_cdf.rs (the distributions) and the SSE 4.2 path of
/repo/src/codec/crc32.rs (the checksum).  Lanes are bit vectors; reinterpreting a vector is
little-endian, as on all the machines the crate supports with this feature.
-/
namespace Divans.Simd
open Divans.Cdf Divans.Num

/-! ## Vectors -/

/-- A vector of `n` lanes of `w` bits (`i16x16`, `i8x32`, `i32x8`, ...). -/
abbrev V (n w : Nat) := Fin n → BitVec w

/-- `splat`. -/
def splat {n w : Nat} (x : Int) : V n w := fun _ => BitVec.ofInt w x

/-- `shuffle!(a, b, idx)`: lane `i` of the result is lane `idx[i]` of `a` followed by `b`. -/
def shuffle {n w : Nat} (m : Nat) (a b : V n w) (idx : List Nat) : V m w := fun i =>
  let k := idx.getD i.val 0
  if h : k < n then a ⟨k, h⟩ else if h : k - n < n then b ⟨k - n, h⟩ else 0

/-- `a.ge(b)` on signed lanes: a mask, all ones where it holds. -/
def ge {n w : Nat} (a b : V n w) : V n w := fun i =>
  if (b i).toInt ≤ (a i).toInt then BitVec.allOnes w else 0

/-- `a.gt(b)` on signed lanes. -/
def gt {n w : Nat} (a b : V n w) : V n w := fun i =>
  if (b i).toInt < (a i).toInt then BitVec.allOnes w else 0

/-- `i8x32::from_bits` of an `i16x16`. -/
def bytesOf16 (v : V 16 16) : V 32 8 := fun i =>
  (v ⟨i.val / 2, by omega⟩).extractLsb' (8 * (i.val % 2)) 8

/-- `i64x2::from_bits` of an `i8x16`. -/
def quadsOf8 (v : V 16 8) : V 2 64 := fun i =>
  let b := fun (k : Nat) (h : k < 8) => v ⟨8 * i.val + k, by omega⟩
  b 7 (by omega) ++ b 6 (by omega) ++ b 5 (by omega) ++ b 4 (by omega) ++ b 3 (by omega) ++
    b 2 (by omega) ++ b 1 (by omega) ++ b 0 (by omega)

/-- `i32x8::from_bits` of an `i16x16`. -/
def pairsOf16 (v : V 16 16) : V 8 32 := fun i =>
  v ⟨2 * i.val + 1, by omega⟩ ++ v ⟨2 * i.val, by omega⟩

/-- `i16x16::from_bits` of an `i32x8`. -/
def halvesOf32 (v : V 8 32) : V 16 16 := fun i =>
  (v ⟨i.val / 2, by omega⟩).extractLsb' (16 * (i.val % 2)) 16

/-- `_mm_movemask_epi8`, `_mm256_movemask_epi8`: the top bits of the first `k` lanes. -/
def movemask {n : Nat} (v : V n 8) : Nat → Nat
  | 0 => 0
  | k + 1 => movemask v k + if h : k < n then (if (v ⟨k, h⟩).msb then 2 ^ k else 0) else 0

/-! ## Division in `f64` -/

/-- The quotient of two positive integers in `f64`, rounded to nearest, ties to even: the mantissa
`m` and the scale `k` of the result `m / 2^k`.  `k` is chosen so that the mantissa has 53 bits before
rounding.  Neither overflow nor underflow is possible for the operands of this file. -/
def f64Quot (a b : Nat) : Nat × Nat :=
  let k0 := 53 + bitLen b - bitLen a
  let k := if a <<< k0 / b < 2 ^ 53 then k0 else k0 - 1
  let q := a <<< k / b
  let r := a <<< k % b
  (if 2 * r < b ∨ (2 * r = b ∧ q % 2 = 0) then q else q + 1, k)

/-- `(a as f64 / b as f64) as i32` for integers `a`, `b` of at most 32 bits.  Division by zero gives
an infinity or no number; the cast saturates (before Rust 1.45 it was undefined). -/
def f64DivTrunc (a b : Int) : Int :=
  if a = 0 then 0
  else if b = 0 then (if 0 < a then 2 ^ 31 - 1 else -2 ^ 31)
  else
    let q := f64Quot a.natAbs b.natAbs
    if (0 < a) = (0 < b) then (q.1 / 2 ^ q.2 : Nat) else -((q.1 / 2 ^ q.2 : Nat) : Int)

/-! ## The distribution -/

/-- `SIMDFrequentistCDF16`, /repo/src/probability/simd_frequentist_cdf.rs:9-12. -/
abbrev SCdf := V 16 16

/-- `default`, /repo/src/probability/simd_frequentist_cdf.rs:23-28. -/
def SCdf.default : SCdf := fun i =>
  BitVec.ofNat 16 ([4, 8, 12, 16, 20, 24, 28, 32, 36, 40, 44, 48, 52, 56, 60, 64].getD i.val 0)

/-- `max`, /repo/src/probability/simd_frequentist_cdf.rs:46-47. -/
def SCdf.max (c : SCdf) : Int := (c 15).toInt

/-- `cdf`, /repo/src/probability/simd_frequentist_cdf.rs:55-59. -/
def SCdf.get (c : SCdf) (sym : Nat) : Int := (c ⟨sym % 16, Nat.mod_lt _ (by decide)⟩).toInt

/-- `i16x16::new(1,2,..,16)`, /repo/src/probability/simd_frequentist_cdf.rs:229. -/
def oneTo16 : V 16 16 := fun i => BitVec.ofNat 16 (i.val + 1)

/-- `blend`, /repo/src/probability/simd_frequentist_cdf.rs:226-238; arithmetic of lanes wraps. -/
def SCdf.blend (c : SCdf) (sym : Nat) (sp : Speed) : SCdf :=
  let inc : V 16 16 := splat sp.inc
  let mask := gt oneTo16 (splat (sym : Int))
  let c1 : SCdf := fun i => c i + (inc i &&& mask i)
  if sp.lim ≤ c1.max then
    fun i => c1 i + oneTo16 i - (c1 i + oneTo16 i).sshiftRight 2
  else c1

/-- `i16x16_to_i32x8_tuple`, /repo/src/probability/simd_frequentist_cdf.rs:172-180. -/
def widen (v : V 16 16) : V 8 32 × V 8 32 :=
  (pairsOf16 (shuffle 16 v (splat 0) [0, 16, 1, 16, 2, 16, 3, 16, 4, 16, 5, 16, 6, 16, 7, 16]),
   pairsOf16 (shuffle 16 v (splat 0) [8, 16, 9, 16, 10, 16, 11, 16, 12, 16, 13, 16, 14, 16, 15, 16]))

/-- `i32x8_tuple_to_i16x16`, /repo/src/probability/simd_frequentist_cdf.rs:182-186. -/
def narrow (a b : V 8 32) : V 16 16 :=
  shuffle 16 (halvesOf32 a) (halvesOf32 b) [0, 2, 4, 6, 8, 10, 12, 14, 16, 18, 20, 22, 24, 26, 28, 30]

/-- One half of `average`, /repo/src/probability/simd_frequentist_cdf.rs:210-217. -/
def mixHalf (s o : V 8 32) (ourMax otherMax mixRate : Int) (shift : Nat) : V 8 32 := fun i =>
  let rs := (s i * BitVec.ofInt 32 otherMax).sshiftRight shift
  let ro := (o i * BitVec.ofInt 32 ourMax).sshiftRight shift
  (rs * BitVec.ofInt 32 mixRate + ro * BitVec.ofInt 32 (2 ^ 15 - mixRate) + 1).sshiftRight 15

/-- `average`, /repo/src/probability/simd_frequentist_cdf.rs:191-219.  (`leading_zeros` of a negative
product is not modelled.) -/
def SCdf.average (self other : SCdf) (mixRate : Int) : SCdf :=
  let ourMax := self.max
  let otherMax := other.max
  let shift := 17 - min (clz32 (ourMax * otherMax)) 17
  let s := widen self
  let o := widen other
  narrow (mixHalf s.1 o.1 ourMax otherMax mixRate shift) (mixHalf s.2 o.2 ourMax otherMax mixRate shift)

/-- `sym_to_start_and_freq`, /repo/src/probability/simd_frequentist_cdf.rs:80-97. -/
def SCdf.symRange (c : SCdf) (sym : Nat) : Range :=
  let prev : BitVec 32 := BitVec.ofInt 32 (if sym ≠ 0 then c.get (sym - 1) else 0)
  let cur : BitVec 32 := BitVec.ofInt 32 (c.get sym)
  let e0 := f64DivTrunc (prev <<< 15).toInt c.max
  let e1 := f64DivTrunc (cur <<< 15).toInt c.max
  let start := i32 (e0 + 1)
  let freq := i32 (e1 - start)
  ⟨i16 start, i16 freq⟩

/-- `sym_to_start_and_freq_with_div_hint`: with `avoid-divide` the default method of the trait,
/repo/src/probability/interface.rs:119-132, otherwise the above
(/repo/src/probability/simd_frequentist_cdf.rs:72-78). -/
def SCdf.symRangeHint (avoidDivide : Bool) (c : SCdf) (sym : Nat) : Range :=
  if avoidDivide then
    let inv := lookupDivisor c.max
    let cdfSym := fastDivide (c.get sym <<< 15) inv
    let cdfPrev := if sym ≠ 0 then fastDivide (c.get (sym - 1) <<< 15) inv else 0
    ⟨i16 (i16 cdfPrev + 1), i16 (i16 (cdfSym - cdfPrev) - 1)⟩
  else c.symRange sym

/-- The three versions of the lookup. -/
inductive Variant where
  | portable | avx2 | sse
deriving DecidableEq, Repr

/-- `leading_zeros` of a `w`-bit number. -/
def clz (w x : Nat) : Nat := w - bitLen x

/-- The symbol of the portable lookup, /repo/src/probability/simd_frequentist_cdf.rs:105-111. -/
def symPortable (less : V 16 16) : Nat :=
  let tmp : V 16 8 := shuffle 16 (bytesOf16 less) (splat 0)
    [0, 4, 8, 12, 16, 20, 24, 28, 2, 6, 10, 14, 18, 22, 26, 30]
  let sel : V 16 8 := fun i => if i.val < 8 then BitVec.ofInt 8 0xf else BitVec.ofInt 8 (-0x10)
  let m := quadsOf8 (fun i => tmp i &&& sel i)
  (64 - clz 64 (m 0 ||| m 1).toNat) >>> 2

/-- The symbol of the AVX2 lookup, /repo/src/probability/simd_frequentist_cdf.rs:124-125. -/
def symAvx2 (less : V 16 16) : Nat := (32 - clz 32 (movemask (bytesOf16 less) 32)) >>> 1

/-- The symbol of the SSE lookup, /repo/src/probability/simd_frequentist_cdf.rs:138-141. -/
def symSse (less : V 16 16) : Nat :=
  let tmp : V 16 8 := shuffle 16 (bytesOf16 less) (splat 0)
    [0, 2, 4, 6, 8, 10, 12, 14, 16, 18, 20, 22, 24, 26, 28, 30]
  32 - clz 32 (movemask tmp 16)

/-- The symbol found by each of the versions. -/
def Variant.sym : Variant → V 16 16 → Nat
  | .portable => symPortable
  | .avx2 => symAvx2
  | .sse => symSse

/-- `cdf_offset_to_sym_start_and_freq`, /repo/src/probability/simd_frequentist_cdf.rs:98-143. -/
def SCdf.lookup (v : Variant) (avoidDivide : Bool) (c : SCdf) (off : Int) : Nat × Range :=
  let r : V 16 16 := splat (i16 ((off * c.max) >>> 15))
  let s := v.sym (ge r c)
  (s, c.symRangeHint avoidDivide s)

/-! ## The coder over any implementation of the distributions

The types `DefaultInternalCDF16` can be, /repo/src/interface.rs:146-153; the rest of the crate is
generic in it. -/

/-- The methods the coder calls. -/
structure Impl where
  σ : Type
  default : σ
  blend : σ → Nat → Speed → σ
  average : σ → σ → Int → σ
  symRange : σ → Nat → Range
  lookup : σ → Int → Nat × Range

/-- The default build: `OptFrequentistCDF16`. -/
def optImpl : Impl := ⟨Opt, Opt.default, Opt.blend, Opt.average, Opt.symRange, Opt.lookup⟩

/-- The build with `uncached_frequentist`: `FrequentistCDF16`. -/
def plainImpl : Impl :=
  ⟨Cdf, Cdf.default, Cdf.blend, Cdf.average, fun c => Cdf.symRange (divByMax c) c,
    fun c => Cdf.lookup (divByMax c) c⟩

/-- The builds with `simd`. -/
def simdImpl (v : Variant) (avoidDivide : Bool) : Impl :=
  ⟨SCdf, SCdf.default, SCdf.blend, SCdf.average, SCdf.symRange, SCdf.lookup v avoidDivide⟩

open Divans.Adaptive Divans.Weights

/-- The adaptive state, as `Adaptive.Session`. -/
structure Ses (I : Impl) (κ ι : Type) where
  models : κ → I.σ
  weights : ι → Weights
  hist : List Nat

/-- All models fresh. -/
def Ses.init (I : Impl) (κ ι : Type) : Ses I κ ι := ⟨fun _ => I.default, fun _ => Weights.new, []⟩

/-- The distribution handed to the coder, as `Session.coding`. -/
def Ses.coding {I : Impl} {κ ι : Type} (s : Ses I κ ι) : Choice κ ι → I.σ
  | .fixed => I.default
  | .plain k _ => s.models k
  | .mixed cm nib w _ _ => I.average (s.models cm) (s.models nib) (s.weights w).mixRate

/-- Optional adaptation. -/
def adaptIf (I : Impl) (o : I.σ) (sym : Nat) : Option Speed → I.σ
  | none => o
  | some sp => I.blend o sym sp

/-- State after nibble `sym` was coded, as `Session.after`. -/
def Ses.after {I : Impl} {κ ι : Type} [DecidableEq κ] [DecidableEq ι] (s : Ses I κ ι) (ch : Choice κ ι)
    (sym : Nat) : Ses I κ ι :=
  match ch with
  | .fixed => { s with hist := s.hist ++ [sym] }
  | .plain k sp =>
    { s with models := Function.update s.models k (adaptIf I (s.models k) sym sp),
             hist := s.hist ++ [sym] }
  | .mixed cm nib w spCm spNib =>
    let range := I.symRange (s.coding ch) sym
    let p0 := (I.symRange (s.models cm) sym).freq
    let p1 := (I.symRange (s.models nib) sym).freq
    let ws := Function.update s.weights w ((s.weights w).update (p0, p1) range.freq)
    let m1 := Function.update s.models cm (adaptIf I (s.models cm) sym spCm)
    let m2 := Function.update m1 nib (adaptIf I (m1 nib) sym spNib)
    ⟨m2, ws, s.hist ++ [sym]⟩

/-- The sender: slots handed to the entropy coder. -/
def sendNibbles {I : Impl} {κ ι : Type} [DecidableEq κ] [DecidableEq ι] (rule : List Nat → Choice κ ι) :
    Ses I κ ι → List Nat → List Ans.Slot
  | _, [] => []
  | s, n :: t =>
    (I.symRange (s.coding (rule s.hist)) n).toSlot :: sendNibbles rule (s.after (rule s.hist) n) t

/-- The receiver: decodes `n` nibbles; the nibbles of the whole session, the state of the entropy
decoder and the input left. -/
def receiveNibbles {I : Impl} {κ ι : Type} [DecidableEq κ] [DecidableEq ι] (rule : List Nat → Choice κ ι) :
    Nat → Ses I κ ι → Ans.Dec → List UInt8 → List (List UInt8) →
      Option (List Nat × Ans.Dec × List UInt8 × List (List UInt8))
  | 0, s, d, cur, more => some (s.hist, d, cur, more)
  | n + 1, s, d, cur, more =>
    match d.fill cur more with
    | none => none
    | some (d', cur', more') =>
      let r := I.lookup (s.coding (rule s.hist)) d'.offset
      receiveNibbles rule n (s.after (rule s.hist) r.1) (d'.advance r.2.toSlot) cur' more'

/-! ## The checksum -/

/-- The low `w` bits of `x` in reverse order (`BIT_REFLECT`). -/
def reflect : Nat → Nat → Nat
  | 0, _ => 0
  | w + 1, x => (if x % 2 = 1 then 2 ^ w else 0) ^^^ reflect w (x / 2)

/-- The remainder of the polynomial over GF(2) with `n + 32` coefficients modulo the polynomial
`11EDC6F41H` (long division, from the top). -/
def polyMod : Nat → Nat → Nat
  | 0, x => x
  | n + 1, x => polyMod n (if x.testBit (n + 32) then x ^^^ (0x11EDC6F41 <<< n) else x)

/-- The instruction `CRC32` with a source of `n` bits (`_mm_crc32_u8`, `_mm_crc32_u64`), as described
in the Intel SDM, volume 2. -/
def crcInstr (n crc src : Nat) : Nat :=
  reflect 32 (polyMod n ((reflect n src <<< 32) ^^^ (reflect 32 crc <<< n)))

/-- The eight bytes as a `u64`, /repo/src/codec/crc32.rs:79-80. -/
def word64 (buf : List UInt8) : Nat :=
  let b := Crc.byteAt buf
  b 0 ||| (b 1 <<< 8) ||| (b 2 <<< 16) ||| (b 3 <<< 24) |||
    (b 4 <<< 32) ||| (b 5 <<< 40) ||| (b 6 <<< 48) ||| (b 7 <<< 56)

/-- `while buf.len() >= 8`, /repo/src/codec/crc32.rs:77-82; the first argument bounds the number of
rounds. -/
def crcBlocks : Nat → Nat → List UInt8 → Nat × List UInt8
  | 0, crc, buf => (crc, buf)
  | n + 1, crc, buf =>
    if 8 ≤ buf.length then crcBlocks n (crcInstr 64 crc (word64 buf)) (buf.drop 8) else (crc, buf)

/-- `sse_crc32c_update`, /repo/src/codec/crc32.rs:75-87. -/
def crcUpdate (crc : Nat) (buf : List UInt8) : Nat :=
  let r := crcBlocks buf.length (Crc.not32 crc) buf
  Crc.not32 (r.2.foldl (fun c b => crcInstr 8 c b.toNat) r.1)

end Divans.Simd
