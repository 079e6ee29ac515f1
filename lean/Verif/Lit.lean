import Verif.LitTables
import Verif.Rx
import Verif.CodecCmd

/-!
# Literal contents

Model of the coding of the bytes of literal commands, `/repo/src/codec/literal.rs`: which model codes
the next half byte, and what both sides keep to find that out (`LiteralBookKeeping`,
`/repo/src/codec/interface.rs:122-340`).

`None` stands for a panic of the program.  Literals with external probabilities
(`LiteralNibbleIndexWithECDF`) are not modelled.  The prediction mode numbers of the brotli crate are
0 (LSB6), 1 (MSB6), 2 (UTF8) and 3 (SIGN).
-/

namespace Divans.Lit
open Divans.Cdf Divans.Adaptive

/-- `get_lut0`, `/repo/src/codec/interface.rs:197-219`: the part of the context the last byte gives. -/
def lut0 (mode prev : Nat) : Option Nat :=
  if mode = 3 then (signedLookup[prev]?).map fun v => v <<< 3
  else if mode = 2 then utf8Lookup[prev]?
  else if mode = 1 then some (prev >>> 2)
  else if mode = 0 then some (prev &&& 0x3f)
  else none

/-- `get_lut1`, `/repo/src/codec/interface.rs:220-237`: the part the byte before it gives. -/
def lut1 (mode prev : Nat) : Option Nat :=
  if mode = 3 then signedLookup[prev]?
  else if mode = 2 then utf8Lookup[256 + prev]?
  else if mode = 1 then some 0
  else if mode = 0 then some 0
  else none

/-- `LiteralBookKeeping`, `/repo/src/codec/interface.rs:122-141`.  `last8` is the `u64` with the last
eight bytes, the newest in the highest byte.  The tables of distributions and the weights are in the
`Session`; `stride` and `combine_literal_predictions` are not read when coding. -/
structure Lbk where
  last8 : Nat
  ctxMap : List UInt8
  btype : UInt8
  mode : Nat
  adapt : List Speed
  mixing : List Nat
  mixParam : Nat
  deriving DecidableEq, Repr

/-- `LiteralBookKeeping::new`, `/repo/src/codec/interface.rs:246-267`; the context map comes zeroed from
the allocator (lines 735-736). -/
def Lbk.init : Lbk :=
  ⟨0, List.replicate 16384 0, 0, 0, List.replicate 4 Codec.mud, List.replicate 8192 0, 1⟩

/-- `push_literal_byte`, `/repo/src/codec/interface.rs:282-286`. -/
def Lbk.pushByte (l : Lbk) (b : UInt8) : Lbk :=
  { l with last8 := (l.last8 >>> 8) ||| (b.toNat <<< 0x38) }

/-- The eight bytes of the recoder packed into a `u64`, `/repo/src/codec/mod.rs:771-779` and
`/repo/src/codec/decoder.rs:364-372`. -/
def pack8 : List UInt8 → Nat
  | [] => 0
  | b :: t => b.toNat ||| (pack8 t <<< 8)

/-- `obs_literal_block_switch`, `/repo/src/codec/interface.rs:291-294`. -/
def Lbk.obsBtype (l : Lbk) (t : UInt8) : Lbk := { l with btype := t }

/-- `Speed::from_f8_tuple`, `/repo/src/probability/interface.rs:332-334, 341-345`. -/
def speedOf (f8 : Nat × Nat) : Option Speed :=
  match Weights.u8ToSpeed f8.1, Weights.u8ToSpeed f8.2 with
  | some a, some b => if a ≤ 0x4000 ∧ b ≤ 0x4000 then some ⟨a, b⟩ else none
  | _, _ => none

/-- `obs_prediction_mode_context_map`, `/repo/src/codec/interface.rs:268-281, 295-321`.  The speeds of
the buffer are in the order stride 0, stride 1, context map 0, context map 1.  `clone_from_slice`
panics when the lengths differ. -/
def Lbk.obsPm (l : Lbk) (p : Codec.Pm) : Codec.Res Lbk :=
  if 3 < p.mode then .fail
  else
    match p.speeds.mapM speedOf with
    | none => .panic
    | some a =>
      if p.litMap.length = 16384 ∧ p.mixing.length = 8192 then
        .ok { l with ctxMap := p.litMap, mode := p.mode, adapt := a, mixing := p.mixing,
                     mixParam := p.mixMath }
      else .panic

/-- `get_prev_word_context`, `/repo/src/codec/literal.rs:87-117`: the context of the next byte. -/
def Lbk.context (l : Lbk) : Option Nat :=
  (lut0 l.mode ((l.last8 >>> 0x38) &&& 0xff)).bind fun a =>
    (lut1 l.mode ((l.last8 >>> 0x30) &&& 0xff)).bind fun b =>
      (l.ctxMap[(a ||| b) + (l.btype.toNat <<< 6)]?).map UInt8.toNat

/-- The tables of distributions for literals: high half bytes, low half bytes, and the table for
mixing.  `/repo/src/codec/priors.rs:35-37, 45-47`. -/
inductive Tab where
  | high
  | low
  | cm
  deriving DecidableEq, Repr

/-- A distribution for literals. -/
abbrev Key := Tab × Nat

/-- `lit_priors.get`, `/repo/src/codec/literal.rs:205-208`. -/
def nibKey (high : Bool) (a b c : Nat) : Option Key :=
  (Codec.linearize [3, 256, 256] [a, b, c]).map fun i => (if high then .high else .low, i)

/-- `lit_cm_priors.get`, `/repo/src/codec/literal.rs:220-229`: 256 entries for the high half, then
16 times 256 for the low half. -/
def cmKey (high : Bool) (prior ctx : Nat) : Option Key :=
  if high then (Codec.linearize [1, 256] [0, ctx]).map fun i => (.cm, i)
  else (Codec.linearize [1, 16, 256] [0, prior, ctx]).map fun i => (.cm, 256 + i)

/-- Index into the mixing mask, `/repo/src/codec/literal.rs:174-180`. -/
def mixIndex (high : Bool) (ctx prev prior : Nat) : Nat :=
  if high then ctx ||| ((prev >>> 4) <<< 8) else ctx ||| ((prior &&& 0xf) <<< 8) ||| 4096

/-- The byte the stride chosen by the mixing mask points to, `/repo/src/codec/literal.rs:190-194`. -/
def strideByte (last8 mm : Nat) : Nat :=
  let off := if mm < 4 then 0 else (min 7 (mm ^^^ 4)) <<< 3
  (last8 >>> (0x38 - off)) &&& 0xff

/-- The three indices into the table, `/repo/src/codec/literal.rs:181-207`.  `!x` of a byte is
`255 ^^^ x`; the shift of `actual_context & opt_1_f_mask` stays in a byte. -/
def nibIndex (high : Bool) (mm ctx stride prior : Nat) : Nat × Nat × Nat :=
  let fast := if mm ≠ 3 then 255 else 0
  let m := if mm ≠ 0 ∧ mm ≠ 3 then 255 else 0
  let f := if mm = 1 then 0xf else 0
  let a := (m >>> 7) ^^^ (f >>> 2)
  if high then (a, stride &&& m &&& (255 ^^^ f), ctx)
  else (a, (m &&& stride) ||| ((255 ^^^ m) &&& ctx), (prior &&& fast) ||| ((ctx &&& f) <<< 4))

/-- How the next half byte is coded.  `prior` is the high half when the low one is coded, else 0.
The mixing trait is in use when the mixing parameter is above 1
(`/repo/src/codec/specializations.rs:28-37`, `/repo/src/codec/weights.rs:43-46`).
`/repo/src/codec/literal.rs:153-259` with the adaptation at lines 315-319 and 357-361. -/
def nibChoice (l : Lbk) (high : Bool) (prior : Nat) : Option (Choice Key Bool) :=
  l.context.bind fun ctx =>
    (l.mixing[mixIndex high ctx ((l.last8 >>> 0x38) &&& 0xff) prior]?).bind fun mm =>
      let x := nibIndex high mm ctx (strideByte l.last8 mm) prior
      (nibKey high x.1 x.2.1 x.2.2).bind fun k =>
        l.adapt[0]?.bind fun sp =>
          if 1 < l.mixParam then
            (cmKey high prior ctx).bind fun cm =>
              (l.adapt[if high then 3 else 2]?).bind fun spCm =>
                some (.mixed cm k high (some spCm) (if mm = 2 then none else some sp))
          else if mm = 2 then some .fixed
          else some (.plain k (some sp))

/-! ## The contents of one literal -/

/-- Where the coding of a literal is: bytes still to come, the high half of the current one if it is
known, and the bytes done (newest first). -/
structure Content where
  left : Nat
  high : Option Nat
  done : List UInt8
  deriving DecidableEq, Repr

/-- How the next half byte is coded. -/
def Content.ask (l : Lbk) (c : Content) : Option (Choice Key Bool) :=
  match c.high with
  | none => nibChoice l true 0
  | some h => nibChoice l false h

/-- What both sides do with a half byte, `/repo/src/codec/literal.rs:303-362`. -/
def Content.take (l : Lbk) (c : Content) (nib : Nat) : Lbk × Content :=
  match c.high with
  | none => (l, { c with high := some nib })
  | some h =>
    let b := UInt8.ofNat (nib ||| (h <<< 4))
    (l.pushByte b, ⟨c.left - 1, none, b :: c.done⟩)

/-- The sender: the half bytes of a literal and how each is coded.
`/repo/src/codec/literal.rs:261-394, 404-494` with `get_literal_byte`,
`/repo/src/cmd_to_divans/mod.rs:89-93`. -/
def sendBytes : Lbk → List UInt8 → Option (Trace Key Bool × Lbk)
  | l, [] => some ([], l)
  | l, b :: t =>
    (nibChoice l true 0).bind fun c1 =>
      (nibChoice l false (b.toNat >>> 4)).bind fun c2 =>
        (sendBytes (l.pushByte b) t).map fun r =>
          ((c1, b.toNat >>> 4) :: (c2, b.toNat &&& 0xf) :: r.1, r.2)

end Divans.Lit
