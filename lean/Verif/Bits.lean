import Verif.Ans
import Verif.Cdf
import Verif.Reg

/-
Model of what is coded bit by bit: the adaptive bit `CDF2` (/repo/src/probability/interface.rs), the
provided methods of the entropy coders that code a nibble as four bits
(/repo/src/arithmetic_coder.rs), and the coder for debugging, which is built on these and on the
register queue (/repo/src/debug_encoder.rs).
-/
namespace Divans.Bits

open Divans.Num

/-! ### The adaptive bit -/

/-- `CDF2 { counts, prob }`, /repo/src/probability/interface.rs:217-221: how often false and true
were seen, plus one, and the probability of false in 256ths. -/
structure Cdf2 where
  f : Nat
  t : Nat
  prob : Nat
deriving DecidableEq, Repr

/-- `CDF2::default`, /repo/src/probability/interface.rs:223-230. -/
def Cdf2.init : Cdf2 := ⟨1, 1, 128⟩

/-- `(u16::from(c0) << 8) / (sum)) as u8`, /repo/src/probability/interface.rs:291 and 294: `none` is
the division by zero.  Bits shifted out of the `u16` are lost. -/
def ratio (c0 sum : Nat) : Option Nat :=
  if sum = 0 then none else some ((c0 <<< 8 % 65536 / sum) % 256)

/-- `CDF2::blend`, /repo/src/probability/interface.rs:272-297: `none` is a failed `debug_assert`. -/
def Cdf2.blend (c : Cdf2) (bit : Bool) : Option Cdf2 :=
  if c.f = 0 ∨ c.t = 0 then none
  else
    let overflow := (if bit then c.t else c.f) = 255
    if overflow then
      if (if bit then c.f else c.t) = 1 then
        some (if bit then { c with t := 255, prob := 0 } else { c with f := 255, prob := 255 })
      else
        let f' := if bit then ((1 + c.f) >>> 1) % 256 else 129
        let t' := if bit then 129 else ((1 + c.t) >>> 1) % 256
        (ratio f' (f' + t')).map fun p => ⟨f', t', p⟩
    else
      let f' := if bit then c.f else (c.f + 1) % 256
      let t' := if bit then (c.t + 1) % 256 else c.t
      (ratio f' (c.f + c.t + 1)).map fun p => ⟨f', t', p⟩

/-- The state of an adaptive bit after a history, oldest first. -/
def Cdf2.after (c : Cdf2) : List Bool → Option Cdf2
  | [] => some c
  | b :: bs => (c.blend b).bind fun c' => c'.after bs

/-- `CDF2::cdf`, /repo/src/probability/interface.rs:256-262 (of the two symbols there are). -/
def Cdf2.cdf (c : Cdf2) (sym : Bool) : Int := if sym then 256 else c.prob

/-- `CDF2::div_by_max`, /repo/src/probability/interface.rs:252-254. -/
def Cdf2.divByMax (v : Int) : Int := v.tdiv 256

/-- `CDF2::cdf_offset_to_sym_start_and_freq`, /repo/src/probability/interface.rs:233-251: the bit
owning an offset, and its range. -/
def Cdf2.lookup (c : Cdf2) (off : Int) : Bool × Cdf.Range :=
  let bit := decide ((off * 256) >>> 15 ≥ (c.prob : Int))
  let rescaled := Cdf2.divByMax ((c.prob : Int) <<< 15)
  (bit, ⟨if bit then i16 rescaled else 0, if bit then i16 (2 ^ 15 - rescaled) else i16 rescaled⟩)

/-- `sym_to_start_and_freq`, /repo/src/probability/interface.rs:96-108, which `CDF2` inherits. -/
def Cdf2.symRange (c : Cdf2) (sym : Bool) : Cdf.Range :=
  let cdfSym := Cdf2.divByMax (c.cdf sym <<< 15)
  let cdfPrev := if sym then Cdf2.divByMax (c.cdf false <<< 15) else 0
  ⟨i16 (i16 cdfPrev + 1), i16 (i16 (cdfSym - cdfPrev) - 1)⟩

/-! ### A nibble as four bits -/

/-- What `put_nibble` and `get_nibble` ask of a distribution: `cdf`, `max` and `log_max`,
/repo/src/probability/interface.rs:60-77. -/
structure Dist where
  cdf : Nat → Int
  max : Int
  logMax : Option Nat

/-- `(((p - lo) << 8) / (hi - lo)) as u8`, /repo/src/arithmetic_coder.rs:108: `none` is the division
by zero.  The differences of `i16` values shifted by eight fit in `i32`. -/
def norm (p lo hi : Int) : Option UInt8 :=
  if hi - lo = 0 then none else some (UInt8.ofNat ((((p - lo) * 256).tdiv (hi - lo)) % 256).toNat)

/-- `normalized_high_bit_prob`, /repo/src/arithmetic_coder.rs:97-100 and 142-145. -/
def Dist.high (d : Dist) : Option UInt8 :=
  match d.logMax with
  | none => norm (d.cdf 7) 0 d.max
  | some l => some (UInt8.ofNat (((d.cdf 7 * 256) >>> l) % 256).toNat)

/-- `EntropyEncoder::put_nibble`, /repo/src/arithmetic_coder.rs:92-122: the calls of `put_bit` it
makes, in order. -/
def putNibble (d : Dist) (nibble : Nat) : Option (List (Bool × UInt8)) :=
  let highProb := d.cdf 7
  match d.high with
  | none => none
  | some p0 =>
    let high := nibble &&& 8
    let midMax := if high ≠ 0 then d.max else highProb
    let midMin := if high ≠ 0 then highProb else 0
    let midProb := d.cdf ((nibble &&& 8) + 3)
    let mid := nibble &&& 4
    match norm midProb midMin midMax with
    | none => none
    | some p1 =>
      let lomidMin := if mid ≠ 0 then midProb else midMin
      let lomidMax := if mid ≠ 0 then midMax else midProb
      let lomidProb := d.cdf ((nibble &&& 12) + 1)
      match norm lomidProb lomidMin lomidMax with
      | none => none
      | some p2 =>
        let lomid := nibble &&& 2
        let loMin := if lomid ≠ 0 then lomidProb else lomidMin
        let loMax := if lomid ≠ 0 then lomidMax else lomidProb
        let loProb := d.cdf (nibble &&& 14)
        match norm loProb loMin loMax with
        | none => none
        | some p3 =>
          some [(high != 0, p0), (mid != 0, p1), (lomid != 0, p2), ((nibble &&& 1) != 0, p3)]

/-- `EntropyDecoder::get_nibble`, /repo/src/arithmetic_coder.rs:139-168, with `get_bit` of the
decoder as a parameter; `none` is a panic there, a lack of input, or a division by zero here. -/
def getNibble {S : Type} (get : S → UInt8 → Option (Bool × S)) (d : Dist) (s : S) :
    Option (Nat × S) :=
  let highProb := d.cdf 7
  match d.high with
  | none => none
  | some p0 =>
    match get s p0 with
    | none => none
    | some (b0, s0) =>
      let high := b0.toNat <<< 3
      let nibble := high
      let midMax := if high ≠ 0 then d.max else highProb
      let midMin := if high ≠ 0 then highProb else 0
      let midProb := d.cdf ((nibble &&& 8) + 3)
      match norm midProb midMin midMax with
      | none => none
      | some p1 =>
        match get s0 p1 with
        | none => none
        | some (b1, s1) =>
          let mid := b1.toNat <<< 2
          let nibble := nibble ||| mid
          let lomidMin := if mid ≠ 0 then midProb else midMin
          let lomidMax := if mid ≠ 0 then midMax else midProb
          let lomidProb := d.cdf ((nibble &&& 12) + 1)
          match norm lomidProb lomidMin lomidMax with
          | none => none
          | some p2 =>
            match get s1 p2 with
            | none => none
            | some (b2, s2) =>
              let lomid := b2.toNat <<< 1
              let nibble := nibble ||| lomid
              let loMin := if lomid ≠ 0 then lomidProb else lomidMin
              let loMax := if lomid ≠ 0 then lomidMax else lomidProb
              let loProb := d.cdf (nibble &&& 14)
              match norm loProb loMin loMax with
              | none => none
              | some p3 =>
                match get s2 p3 with
                | none => none
                | some (b3, s3) => some (nibble ||| b3.toNat, s3)

/-- Nibbles coded one after another by `put_nibble`; the distribution of each may depend on those
before it (`hist`, oldest first). -/
def putNibbles (next : List Nat → Dist) : List Nat → List Nat → Option (List (Bool × UInt8))
  | _, [] => some []
  | hist, n :: ns =>
    match putNibble (next hist) n with
    | none => none
    | some calls => (putNibbles next (hist ++ [n]) ns).map (calls ++ ·)

/-- Nibbles read one after another by `get_nibble`. -/
def getNibbles {S : Type} (get : S → UInt8 → Option (Bool × S)) (next : List Nat → Dist) :
    Nat → List Nat → S → Option (List Nat × S)
  | 0, hist, s => some (hist, s)
  | k + 1, hist, s =>
    match getNibble get (next hist) s with
    | none => none
    | some (n, s') => getNibbles get next k (hist ++ [n]) s'

/-- `get_bit` of `ANSDecoder` (/repo/src/ans.rs:462-473) after the decoder has taken the bytes it
waits for (/repo/src/arithmetic_coder.rs:189-199); the state is the decoder, the piece of input it
is reading and the pieces to come. -/
def ansGet (s : Ans.Dec × List UInt8 × List (List UInt8)) (p : UInt8) :
    Option (Bool × Ans.Dec × List UInt8 × List (List UInt8)) :=
  match s.1.fill s.2.1 s.2.2 with
  | none => none
  | some (d, cur, more) =>
    let (b, sl) := Ans.bitLookup p d.offset
    some (b, d.advance sl, cur, more)

/-! ### The coder for debugging -/

/-- `DebugEncoder::put_bit`, /repo/src/debug_encoder.rs:38-43, on its register queue (`Reg`): `none` is
a failed assertion. -/
def putBit (r : Reg.Q) (b : Bool) (p : UInt8) : Option Reg.Q :=
  if 0 < Reg.room r then
    let (r', n) := Reg.push r [p ^^^ (if b then 1 else 0)]
    if n = 1 then some r' else none
  else none

/-- `DebugDecoder::get_bit`, /repo/src/debug_encoder.rs:62-72: `none` is a failed assertion. -/
def getBit (debug : Bool) (r : Reg.Q) (p : UInt8) : Option (Bool × Reg.Q) :=
  if 0 < Reg.avail r then
    match Reg.pop debug r 1 with
    | none => none
    | some (r', w) =>
      match w with
      | [x] => if x ^^^ p = 0 then some (false, r')
               else if x ^^^ p = 1 then some (true, r') else none
      | _ => none
  else none

/-- What is done with a `DebugEncoder`: a bit is coded, or up to `room` bytes of output taken
(`drain_or_fill_internal_buffer_unchecked`, /repo/src/arithmetic_coder.rs:230-241). -/
inductive Act where
  | put (b : Bool) (p : UInt8)
  | pop (room : Nat)
deriving DecidableEq, Repr

/-- A sequence of such actions: the bytes taken out, and the register left. -/
def enc (debug : Bool) : Reg.Q → List Act → Option (List UInt8 × Reg.Q)
  | r, [] => some ([], r)
  | r, .put b p :: ops => (putBit r b p).bind fun r' => enc debug r' ops
  | r, .pop k :: ops =>
    match Reg.pop debug r k with
    | none => none
    | some (r', w) => (enc debug r' ops).map fun x => (w ++ x.1, x.2)

/-- `drain_or_fill_internal_buffer_unchecked` of a decoder, /repo/src/arithmetic_coder.rs:189-199:
how many bytes were taken, the register, and whether the decoder asks for more input. -/
def fill (r : Reg.Q) (inp : List UInt8) : Nat × Reg.Q × Bool :=
  let (r', n) := Reg.push r inp
  (n, r', Reg.room r' != 0)

end Divans.Bits
