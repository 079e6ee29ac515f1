import Verif.Codec

/-!
# The command coder: one state machine per command

Model of `/repo/src/codec/copy.rs`, `dict.rs`, `literal.rs` (length part), `block_type.rs`,
`context_map.rs` and of the dispatch in `mod.rs`.

Encoder and decoder run the same code; `get_or_put_nibble` writes the nibble the code computed (on
the encoder) or replaces it by the nibble read (on the decoder).  Accordingly every state is modelled
by three functions:

* `…Ask`: which adaptive model codes the next nibble, and its speed;
* `…Offer`: the nibble the encoder computes from its input command;
* `…Take`: what either side does with the nibble that was coded.

Only `…Offer` looks at the input command.  States of the program in which nothing is coded
(`Begin`, `CountDecoded`) are merged into the next state.  `drain_or_fill_internal_buffer_cmd`, which
every loop calls before coding a nibble, can return early for lack of input or output; the loop then
resumes in the same state, so it does not appear here.
-/

namespace Divans.Codec
open Divans.Num Divans.Cdf

/-- `nib as u8` after `>>`: the byte the encoder offers for the top four bits left.
`/repo/src/codec/copy.rs:141-144`. -/
def mantissaOffer (value acc rem : Nat) : Nat := ((value ^^^ acc) >>> (rem - 4)) % 256

/-- `decoded_so_far | nib << next_len_remaining`, `/repo/src/codec/copy.rs:150`. -/
def mantissaTake (acc rem nib : Nat) : Nat := acc ||| (nib <<< (rem - 4))

/-! ## Copy -/

/-- `CopySubstate`, `/repo/src/codec/copy.rs:19-33`, without the states in which nothing is coded.
The mantissa states carry: whether this is the first nibble, the bits remaining, the value so far. -/
inductive CopyAt where
  | countSmall
  | countFirst
  | countMore
  | countMant (first : Bool) (rem acc : Nat)
  | distMnem
  | distFirst
  | distMore
  | distMant (first : Bool) (rem acc : Nat)
  | done
  deriving DecidableEq, Repr

/-- `CopyState`, `/repo/src/codec/copy.rs:34-37`. -/
structure CopySt where
  distance : Nat
  num : Nat
  at_ : CopyAt
  deriving DecidableEq, Repr

/-- `CopyState::begin`, `/repo/src/codec/copy.rs:40-48`. -/
def CopySt.begin : CopySt := ⟨0, 0, .countSmall⟩

/-- Model for the next nibble of a copy command, `/repo/src/codec/copy.rs:85-268`. -/
def copyAsk (b : Bk) (s : CopySt) : Option Ask :=
  match s.at_ with
  | .countSmall =>
    if b.lastLlen = 0 then none
    else ask? .copy .countSmall [b.ctype, b.last4 / 16 % 4 + 4 * min (b.lastLlen - 1) 3] mud
  | .countFirst => ask? .copy .countBeg [b.ctype, 0] fast
  | .countMore => ask? .copy .countLast [b.ctype, 0] fast
  | .countMant first _ _ =>
    ask? .copy .countMantissa [b.ctype, if first then b.lastClen % 4 + 1 else 0] slow
  | .distMnem =>
    (distPrior b s.num).bind fun p =>
      ask? .copy .distMnemonic [p.toNat, if b.lastLlen < 8 then 1 else 0] slow
  | .distFirst =>
    (distPrior b s.num).bind fun p => ask? .copy .distBeg [p.toNat, bitLen s.num / 4] slow
  | .distMore => (distPrior b s.num).bind fun p => ask? .copy .distLast [p.toNat, 0] rocket
  | .distMant first _ _ =>
    (distPrior b s.num).bind fun p =>
      let index := if first then b.lastDlen % 4 + 1 else 0
      ask? .copy .distMantissa [p.toNat, index]
        ⟨4 * 2 ^ ((index &&& 6) * 2 ^ ((index &&& 2) / 2)), 0x4000⟩
  | .done => none

/-- The nibble the encoder offers for a copy of `num` bytes from `distance`,
`/repo/src/codec/copy.rs:68-73, 89-240`. -/
def copyOffer (b : Bk) (distance num : Nat) (s : CopySt) : Res Nat :=
  let dlen := bitLen distance
  let clen := bitLen num
  if dlen = 0 then .fail
  else
    match s.at_ with
    | .countSmall => .ok (min 15 num)
    | .countFirst => .ok (min 15 ((clen + 256 - 4) % 256))
    | .countMore => .ok ((clen + 256 - 19) % 256)
    | .countMant _ rem acc => .ok (mantissaOffer num acc rem)
    | .distMnem => .ofOption (mnemonicCode b.dist distance)
    | .distFirst =>
      .ok (if (b.dist.d1 + 2 ^ 32 - 3) % 2 ^ 32 = distance then 15 else min 14 (dlen - 1))
    | .distMore => .ok ((dlen + 256 - 15) % 256)
    | .distMant _ rem acc => .ok (mantissaOffer distance acc rem)
    | .done => .panic

/-- Start of a mantissa of `bits` bits below the leading one: `round_up_mod_4(bits)` and
`1 << bits`; the shift overflows from 32 on.  `/repo/src/codec/copy.rs:119, 137`. -/
def mantissaStart (bits : Nat) : Res (Nat × Nat) :=
  if 32 ≤ bits then .panic
  else
    match roundUp4 bits with
    | none => .panic
    | some rem => .ok (rem, 2 ^ bits)

/-- What both sides do with a nibble of a copy command, `/repo/src/codec/copy.rs:100-268`. -/
def copyTake (b : Bk) (s : CopySt) (nib : Nat) : Res (Bk × CopySt) :=
  match s.at_ with
  | .countSmall =>
    if nib = 15 then .ok (b, { s with at_ := .countFirst })
    else .ok ({ b with lastClen := bitLen nib }, { s with num := nib, at_ := .distMnem })
  | .countFirst =>
    if nib = 15 then .ok (b, { s with at_ := .countMore })
    else (mantissaStart (nib + 3)).bind fun m =>
      .ok ({ b with lastClen := nib + 4 }, { s with at_ := .countMant true m.1 m.2 })
  | .countMore =>
    (mantissaStart (nib + 18)).bind fun m =>
      .ok ({ b with lastClen := nib + 19 }, { s with at_ := .countMant true m.1 m.2 })
  | .countMant _ rem acc =>
    if rem < 4 then .panic
    else if rem = 4 then .ok (b, { s with num := mantissaTake acc rem nib, at_ := .distMnem })
    else .ok (b, { s with at_ := .countMant false (rem - 4) (mantissaTake acc rem nib) })
  | .distMnem =>
    if nib = 15 then .ok (b, { s with at_ := .distFirst })
    else
      match fromMnemonic b.dist nib with
      | none => .panic
      | some (d, true) => .ok ({ b with lastDlen := bitLen d }, { s with distance := d, at_ := .done })
      | some (_, false) => .fail
  | .distFirst =>
    if nib = 14 then .ok (b, { s with at_ := .distMore })
    else if nib = 15 then
      let d := (b.dist.d1 + 2 ^ 32 - 3) % 2 ^ 32
      .ok ({ b with lastDlen := bitLen d }, { s with distance := d, at_ := .done })
    else if nib = 0 then .ok ({ b with lastDlen := 1 }, { s with distance := 1, at_ := .done })
    else (mantissaStart nib).bind fun m =>
      .ok ({ b with lastDlen := nib + 1 }, { s with at_ := .distMant true m.1 m.2 })
  | .distMore =>
    (mantissaStart (nib + 14)).bind fun m =>
      .ok ({ b with lastDlen := nib + 15 }, { s with at_ := .distMant true m.1 m.2 })
  | .distMant _ rem acc =>
    if rem < 4 then .panic
    else if rem = 4 then .ok (b, { s with distance := mantissaTake acc rem nib, at_ := .done })
    else .ok (b, { s with at_ := .distMant false (rem - 4) (mantissaTake acc rem nib) })
  | .done => .panic

/-! ## Dictionary -/

/-- `DICT_BITS`, `/repo/src/codec/dict.rs:36-39`. -/
def dictBits : List Nat :=
  [0, 0, 0, 0, 10, 10, 11, 11, 10, 10, 10, 10, 10, 9, 9, 8, 7, 7, 8, 7, 7, 6, 6, 5, 5]

/-- `DictSubstate`, `/repo/src/codec/dict.rs:22-31`. -/
inductive DictAt where
  | sizeFirst
  | sizeMore
  | index (first : Bool) (rem acc : Nat)
  | transHigh
  | transLow
  | done
  deriving DecidableEq, Repr

/-- `DictState`, `/repo/src/codec/dict.rs:32-35`. -/
structure DictSt where
  size : Nat
  id : Nat
  transform : Nat
  at_ : DictAt
  deriving DecidableEq, Repr

/-- `DictState::begin`, `/repo/src/codec/dict.rs:43-48`. -/
def DictSt.begin : DictSt := ⟨0, 0, 0, .sizeFirst⟩

/-- Model for the next nibble of a dictionary command, `/repo/src/codec/dict.rs:83-155`. -/
def dictAsk (b : Bk) (s : DictSt) : Option Ask :=
  match s.at_ with
  | .sizeFirst => ask? .dict .dictSizeBeg [b.ctype] mud
  | .sizeMore => ask? .dict .dictSizeLast [b.ctype] mud
  | .index first _ _ =>
    (dictBits[s.size]?).bind fun bits =>
      (distPrior b s.size).bind fun p =>
        ask? .dict .dictIndex [p.toNat, if first then bits % 4 + 1 else 0] mud
  | .transHigh => ask? .dict .dictTransform [0, s.size / 2] fast
  | .transLow => ask? .dict .dictTransform [1, s.transform / 16] fast
  | .done => none

/-- The nibble the encoder offers, `/repo/src/codec/dict.rs:82, 98, 114-116, 138, 149`. -/
def dictOffer (size id transform : Nat) (s : DictSt) : Res Nat :=
  match s.at_ with
  | .sizeFirst => .ok (min 15 ((size + 256 - 4) % 256))
  | .sizeMore => .ok ((size + 256 - 19) % 256)
  | .index _ rem acc => .ok (mantissaOffer id acc rem)
  | .transHigh => .ok (transform / 16)
  | .transLow => .ok (transform % 16)
  | .done => .panic

/-- `WordIndexMantissa(0, round_up_mod_4(DICT_BITS[word_size]), 0)`,
`/repo/src/codec/dict.rs:94, 110`. -/
def dictIndexStart (s : DictSt) : Res DictSt :=
  match dictBits[s.size]? with
  | none => .panic
  | some bits =>
    match roundUp4 bits with
    | none => .panic
    | some rem => .ok { s with at_ := .index true rem 0 }

/-- What both sides do with a nibble of a dictionary command, `/repo/src/codec/dict.rs:90-170`.  The
word is read from the brotli dictionary (122784 bytes) only to compute the transformed length, which
the recoder checks later; the slice is in range because the index has at most 12 bits. -/
def dictTake (s : DictSt) (nib : Nat) : Res DictSt :=
  match s.at_ with
  | .sizeFirst =>
    if nib = 15 then .ok { s with at_ := .sizeMore } else dictIndexStart { s with size := nib + 4 }
  | .sizeMore => if 24 < nib + 19 then .fail else dictIndexStart { s with size := nib + 19 }
  | .index _ rem acc =>
    if rem < 4 then .panic
    else if rem = 4 then .ok { s with id := mantissaTake acc rem nib, at_ := .transHigh }
    else .ok { s with at_ := .index false (rem - 4) (mantissaTake acc rem nib) }
  | .transHigh => .ok { s with transform := nib * 16, at_ := .transLow }
  | .transLow =>
    if 121 ≤ (s.transform ||| nib) then .fail
    else .ok { s with transform := s.transform ||| nib, at_ := .done }
  | .done => .panic

/-! ## Literal: its length -/

/-- `LiteralSubstate` up to the point where the length is known, `/repo/src/codec/literal.rs:27-39`. -/
inductive LitAt where
  | countSmall (flag : Bool)
  | countFirst
  | countMore
  | countMant (rem acc : Nat)
  | done
  deriving DecidableEq, Repr

/-- `LiteralState` as far as the length and flag are concerned. -/
structure LitSt where
  len : Nat
  highEntropy : Bool
  at_ : LitAt
  deriving DecidableEq, Repr

/-- Start of a literal, `/repo/src/codec/mod.rs:344-348`, `/repo/src/codec/literal.rs:560-562`. -/
def LitSt.begin : LitSt := ⟨0, false, .countSmall false⟩

/-- Model for the next nibble of a literal length, `/repo/src/codec/literal.rs:563-645`. -/
def litAsk (b : Bk) (s : LitSt) : Option Ask :=
  match s.at_ with
  | .countSmall _ => ask? .lit .litCountSmall [b.ctype, 0] med
  | .countFirst => ask? .lit .litSizeBeg [b.ctype] mud
  | .countMore => ask? .lit .litSizeLast [b.ctype] mud
  | .countMant _ _ => ask? .lit .litSizeMantissa [b.ctype] mud
  | .done => none

/-- The nibble the encoder offers for a literal of `len` bytes (`len < 2^32`),
`/repo/src/codec/literal.rs:516-518, 566-569, 599, 622, 635-639`. -/
def litOffer (len : Nat) (highEntropy : Bool) (s : LitSt) : Res Nat :=
  let large := (len + 2 ^ 32 - 15) % 2 ^ 32
  let lllen := bitLen large
  match s.at_ with
  | .countSmall flag =>
    .ok (if highEntropy && !flag then 15 else min 14 ((len + 2 ^ 32 - 1) % 2 ^ 32))
  | .countFirst => .ok (min 15 lllen)
  | .countMore => .ok ((lllen + 256 - 15) % 256)
  | .countMant rem acc => .ok (mantissaOffer large acc rem)
  | .done => .panic

/-- What both sides do with a nibble of a literal length, `/repo/src/codec/literal.rs:577-662`.  For
15 or 16 bytes `last_llen` is not updated (`/repo/src/codec/literal.rs:609-616`). -/
def litTake (b : Bk) (s : LitSt) (nib : Nat) : Res (Bk × LitSt) :=
  match s.at_ with
  | .countSmall _ =>
    if nib = 14 then .ok (b, { s with at_ := .countFirst })
    else if nib = 15 then .ok (b, { s with highEntropy := true, at_ := .countSmall true })
    else .ok ({ b with lastLlen := nib + 1 }, { s with len := nib + 1, at_ := .done })
  | .countFirst =>
    if nib = 15 then .ok (b, { s with at_ := .countMore })
    else if nib ≤ 1 then .ok (b, { s with len := 15 + nib, at_ := .done })
    else (mantissaStart (nib - 1)).bind fun m => .ok (b, { s with at_ := .countMant m.1 m.2 })
  | .countMore =>
    (mantissaStart (nib + 14)).bind fun m => .ok (b, { s with at_ := .countMant m.1 m.2 })
  | .countMant rem acc =>
    if rem < 4 then .panic
    else if rem = 4 then
      let n := mantissaTake acc rem nib + 15
      .ok ({ b with lastLlen := n % 2 ^ 32 }, { s with len := n, at_ := .done })
    else .ok (b, { s with at_ := .countMant (rem - 4) (mantissaTake acc rem nib) })
  | .done => .panic

/-! ## Block switches -/

/-- `BlockTypeState`, `/repo/src/codec/block_type.rs:19-24`, and the stride nibble of
`LiteralBlockTypeState`, `/repo/src/codec/block_type.rs:114-119`. -/
inductive BsAt where
  | begin
  | two
  | final (low : Nat)
  | stride (t : UInt8)
  | done (t : UInt8) (stride : Nat)
  deriving DecidableEq, Repr

/-- Model for the next nibble of a block switch, `/repo/src/codec/block_type.rs:72-101, 181-186`. -/
def bsAsk (k : Switch) : BsAt → Option Ask
  | .begin => ask? .btype .btMnemonic [k.index] slow
  | .two => ask? .btype .btFirst [k.index] slow
  | .final _ => ask? .btype .btSecond [k.index] slow
  | .stride _ => ask? .btype .btStride [0] slow
  | .done _ _ => none

/-- The stride the encoder sends: forced, or the one of the command (`UseBrotliRec` is 9),
`/repo/src/codec/block_type.rs:177-180`. -/
def strideOffer (o : Opts) (stride : Nat) : Nat := if o.forceStride = 9 then stride else o.forceStride

/-- The nibble the encoder offers for a switch to type `t`, `/repo/src/codec/block_type.rs:50-61`. -/
def bsOffer (b : Bk) (o : Opts) (k : Switch) (t : UInt8) (stride : Nat) : BsAt → Res Nat
  | .begin =>
    .ok (if t = (b.btype k).prev then 0
      else if t = (b.btype k).maxSeen + 1 then 1
      else if t.toNat ≤ 12 then t.toNat + 2
      else 15)
  | .two => .ok (t.toNat % 16)
  | .final _ => .ok (t.toNat / 16)
  | .stride _ => .ok (strideOffer o stride)
  | .done _ _ => .panic

/-- The type is known: literal switches still have a stride,
`/repo/src/codec/block_type.rs:159-166`. -/
def bsKnown (k : Switch) (t : UInt8) : BsAt :=
  match k with
  | .lit => .stride t
  | _ => .done t 0

/-- What both sides do with a nibble of a block switch,
`/repo/src/codec/block_type.rs:78-104, 187`. -/
def bsTake (b : Bk) (k : Switch) (s : BsAt) (nib : Nat) : Res BsAt :=
  match s with
  | .begin =>
    if nib = 0 then .ok (bsKnown k (b.btype k).prev)
    else if nib = 1 then .ok (bsKnown k ((b.btype k).maxSeen + 1))
    else if nib = 15 then .ok .two
    else .ok (bsKnown k (UInt8.ofNat (nib - 2)))
  | .two => .ok (.final nib)
  | .final low => .ok (bsKnown k (UInt8.ofNat ((nib <<< 4) ||| low)))
  | .stride t => .ok (.done t nib)
  | .done _ _ => .panic

/-! ## Prediction mode and context maps -/

/-- `PredictionModeSubstate`, `/repo/src/codec/context_map.rs:30-42`.  The flag is
`combine_literal_predictions`. -/
inductive PmAt where
  | begin
  | mixing
  | depth (comb : Bool)
  | speed (i : Nat) (acc : List (Nat × Nat)) (comb : Bool)
  | mnem (i : Nat) (k : MapKind) (comb : Bool)
  | first (i : Nat) (k : MapKind) (comb : Bool)
  | second (i : Nat) (k : MapKind) (high : Nat) (comb : Bool)
  | values (i : Nat) (comb : Bool)
  | done
  deriving DecidableEq, Repr

/-- Model for the next nibble of a prediction mode command, `/repo/src/codec/context_map.rs:174-400`.
The two kinds that are missing from the table fall through to its last entry. -/
def pmAsk (p : Pm) : PmAt → Option Ask
  | .begin => ask? .pm .pmOnly [0] med
  | .mixing => ask? .pm .pmMixing [0] med
  | .depth _ => ask? .pm .pmDepth [0] fast
  | .speed i _ _ => ask? .pm .pmPalette [i % 4] fast
  | .mnem _ k _ => ask? .pm .pmMnemonic [k.index] med
  | .first _ k _ => ask? .pm .pmFirst [k.index] med
  | .second _ k _ _ => ask? .pm .pmSecond [k.index] med
  | .values i _ =>
    if 256 ≤ i then
      (p.mixing[i - 256]?).bind fun v => ask? .pm .pmMixingValue [v % 16] plane
    else ask? .pm .pmMixingValue [16] plane
  | .done => none

/-- `Speed::from_f8_tuple` then `to_f8_tuple` for a speed of the command; an all-zero pair selects the
default speed.  `Speed::new` asserts both parts are at most `0x4000`.
`/repo/src/codec/context_map.rs:126-146, 209`, `/repo/src/probability/interface.rs:329-334`. -/
def wantedSpeed (f8 : Nat × Nat) : Option Speed :=
  if f8.1 ≠ 0 ∨ f8.2 ≠ 0 then
    match Weights.u8ToSpeed f8.1, Weights.u8ToSpeed f8.2 with
    | some a, some b => if a ≤ 0x4000 ∧ b ≤ 0x4000 then some ⟨a, b⟩ else none
    | _, _ => none
  else some mud

/-- `desired_speeds`, `/repo/src/codec/context_map.rs:123-149`. -/
def wantedSpeeds (o : Opts) (c : PmIn) : Option (List Speed) :=
  let fromCmd : Option (List Speed) :=
    match c.speeds with
    | none => some [mud, mud, mud, mud]
    | some v => do
      let c0 ← wantedSpeed v.cm0
      let c1 ← wantedSpeed v.cm1
      let s0 ← wantedSpeed (if o.mixing ≠ 0 then v.comb0 else v.stride0)
      let s1 ← wantedSpeed (if o.mixing ≠ 0 then v.comb1 else v.stride1)
      pure [s0, s1, c0, c1]
  match o.adaptation with
  | none => fromCmd
  | some (a, b, c', d) => fromCmd.map fun _ => [a, b, c', d]

/-- One of the 16 nibbles of the four speeds, `/repo/src/codec/context_map.rs:208-220`. -/
def speedNibble (sp : Speed) (palette : Nat) : Nat :=
  let f0 := Weights.speedToU8 sp.inc % 128
  let f1 := Weights.speedToU8 sp.lim % 128
  if palette = 0 then f0 / 8 else if palette = 1 then f0 % 8 else if palette = 2 then f1 / 8 else f1 % 8

/-- The context map of the command that is being sent, `/repo/src/codec/context_map.rs:265-268`. -/
def cmdMap (c : PmIn) : MapKind → List UInt8
  | .lit => c.litMap
  | .dist => if c.speeds.isSome then c.distMap else []

/-- `cmap_lru.iter().max().unwrap()`. -/
def maxOf (l : List UInt8) : UInt8 := l.foldl max 0

/-- Position of the last occurrence, 15 if there is none; `/repo/src/codec/context_map.rs:279-284`. -/
def lastIdx (l : List UInt8) (v : UInt8) : Nat :=
  (l.zipIdx).foldl (fun r e => if e.1 = v then e.2 else r) 15

/-- The mnemonic nibble for position `i` of a context map, `/repo/src/codec/context_map.rs:273-289`. -/
def mnemOffer (lru : List UInt8) (m : List UInt8) (i : Nat) : Nat :=
  match m[i]? with
  | none => 14
  | some v => if v = maxOf lru + 1 then 13 else lastIdx lru v

/-- The nibble the encoder offers, `/repo/src/codec/context_map.rs:172, 184-189, 203, 207-220, 264-289,
332-342, 352-362, 383-391`. -/
def pmOffer (b : Bk) (o : Opts) (c : PmIn) : PmAt → Res Nat
  | .begin => .ok c.mode
  | .mixing =>
    if c.adv / 2 ≠ 0 then .fail
    else if o.mixing / 8 ≠ 0 then .panic
    else .ok (o.mixing ||| (c.adv * 8))
  | .depth _ => .ok o.priorDepth
  | .speed i _ _ =>
    match (wantedSpeeds o c).bind fun l => l[i / 4]? with
    | none => .panic
    | some sp => .ok (speedNibble sp (i % 4))
  | .mnem i k _ => .ok (mnemOffer b.cmap (if o.doContextMap then cmdMap c k else []) i)
  | .first i k _ =>
    .ok (match (cmdMap c k)[i]? with | none => 0 | some v => v.toNat / 16)
  | .second i k _ _ =>
    .ok (match (cmdMap c k)[i]? with | none => 0 | some v => v.toNat % 16)
  | .values i comb =>
    if !o.doContextMap then .ok 4
    else if !comb then .ok 0
    else if c.speeds.isSome then .ofOption c.mixing[i]?
    else .ok 0
  | .done => .panic

/-- Store one speed nibble, `/repo/src/codec/context_map.rs:227-238`. -/
def speedStore (acc : List (Nat × Nat)) (i nib : Nat) : List (Nat × Nat) :=
  let p := acc.getD (i / 4) (0, 0)
  let q :=
    if i % 4 = 0 then (p.1 ||| (nib <<< 3), p.2)
    else if i % 4 = 1 then (p.1 ||| nib, p.2)
    else if i % 4 = 2 then (p.1, p.2 ||| (nib <<< 3))
    else (p.1, p.2 ||| nib)
  acc.set (i / 4) q

/-- A speed byte as the buffer keeps it: `set_stride_context_speed` and `set_context_map_speed` of the
brotli crate take the expanded speeds and compress them again.
`/repo/src/codec/context_map.rs:240-243`. -/
def speedKept (f8 : Nat × Nat) : Option (Nat × Nat) :=
  match Weights.u8ToSpeed f8.1, Weights.u8ToSpeed f8.2 with
  | some a, some b => some (Weights.speedToU8 a, Weights.speedToU8 b)
  | _, _ => none

/-- Store a context map entry into the buffer, `/repo/src/codec/context_map.rs:318-327, 367-374`. -/
def pmStore (p : Pm) (k : MapKind) (i : Nat) (v : UInt8) : Res Pm :=
  match k with
  | .lit => if i < p.litMap.length then .ok { p with litMap := p.litMap.set i v } else .fail
  | .dist => if i < p.distMap.length then .ok { p with distMap := p.distMap.set i v } else .fail

/-- What both sides do with a nibble of a prediction mode command,
`/repo/src/codec/context_map.rs:169-427`. -/
def pmTake (b : Bk) (p : Pm) (s : PmAt) (nib : Nat) : Res (Bk × Pm × PmAt) :=
  match s with
  | .begin =>
    if 3 < nib then .fail
    else .ok (resetDistMap (resetCmap b), { p with mode := nib }, .mixing)
  | .mixing =>
    .ok (b, { p with mixMath := nib % 4, adv := nib / 4 }, .depth (decide (nib ≠ 0)))
  | .depth comb => .ok (b, p, .speed 0 (List.replicate 4 (0, 0)) comb)
  | .speed i acc comb =>
    let acc' := speedStore acc i nib
    if i + 1 = 16 then
      match acc'.mapM speedKept with
      | none => .panic
      | some l => .ok (b, { p with speeds := l }, .mnem 0 .lit comb)
    else .ok (b, p, .speed (i + 1) acc' comb)
  | .mnem i k comb =>
    if nib = 14 then
      match k with
      | .lit => .ok (resetCmap b, p, .mnem 0 .dist comb)
      | .dist => .ok (b, p, .values 0 comb)
    else if nib = 15 then .ok (b, p, .first i k comb)
    else
      let v := if nib = 13 then maxOf b.cmap + 1 else b.cmap.getD nib 0
      (obsCmap b k i v).bind fun b' => (pmStore p k i v).bind fun p' =>
        .ok (b', p', .mnem (i + 1) k comb)
  | .first i k comb => .ok (b, p, .second i k nib comb)
  | .second i k high comb =>
    let v := UInt8.ofNat ((high <<< 4) ||| nib)
    (pmStore p k i v).bind fun p' => (obsCmap b k i v).bind fun b' =>
      .ok (b', p', .mnem (i + 1) k comb)
  | .values i comb =>
    if i < p.mixing.length then
      let p' := { p with mixing := p.mixing.set i nib }
      if i + 1 = 8192 then .ok (b, p', .done) else .ok (b, p', .values (i + 1) comb)
    else .panic
  | .done => .panic

/-! ## The whole command coder -/

/-- `EncodeOrDecodeState`, `/repo/src/codec/mod.rs:101-117`, with the state of the command being
coded; `stop` is reached after the end marker. -/
inductive At where
  | begin
  | copy (s : CopySt)
  | dict (s : DictSt)
  | lit (s : LitSt)
  | bswitch (k : Switch) (s : BsAt)
  | pm (s : PmAt)
  | stop
  deriving DecidableEq, Repr

/-- The command coder: bookkeeping, prediction mode buffer and position. -/
structure Core where
  bk : Bk
  pm : Pm
  at_ : At
  deriving DecidableEq, Repr

/-- A new command coder. -/
def Core.init : Core := ⟨Bk.init, Pm.init, .begin⟩

/-- The model for the next nibble. `/repo/src/codec/mod.rs:668-677` for the command type. -/
def coreAsk (c : Core) : Option Ask :=
  match c.at_ with
  | .begin => ask? .cc .fullSelection [c.bk.last4 / 16, 0] rocket
  | .copy s => copyAsk c.bk s
  | .dict s => dictAsk c.bk s
  | .lit s => litAsk c.bk s
  | .bswitch k s => bsAsk k s
  | .pm s => pmAsk c.pm s
  | .stop => none

/-- `command_type_to_nibble`, `/repo/src/codec/mod.rs:143-158`. -/
def Head.nibble : Head → Nat
  | .copy _ _ => 1
  | .dict _ _ _ => 2
  | .lit _ _ => 3
  | .bswitch .lit _ _ => 4
  | .bswitch .cmd _ _ => 5
  | .bswitch .dist _ _ => 6
  | .pm _ => 7

/-- The nibble the encoder offers while coding command `h`.  A command type that does not match the
state reached cannot occur on the encoder. -/
def coreOffer (o : Opts) (h : Head) (c : Core) : Res Nat :=
  match c.at_, h with
  | .begin, h => .ok h.nibble
  | .copy s, .copy d n => copyOffer c.bk d n s
  | .dict s, .dict z i t => dictOffer z i t s
  | .lit s, .lit n e => litOffer n e s
  | .bswitch k s, .bswitch _ t st => bsOffer c.bk o k t st s
  | .pm s, .pm p => pmOffer c.bk o p s
  | _, _ => .panic

/-- `update_command_state_from_nibble` and the state history updates,
`/repo/src/codec/mod.rs:333-376, 682-687`. -/
def startTake (c : Core) (nib : Nat) : Res Core :=
  if nib = 1 then .ok ⟨obsState c.bk 64, c.pm, .copy CopySt.begin⟩
  else if nib = 2 then .ok ⟨obsState c.bk 192, c.pm, .dict DictSt.begin⟩
  else if nib = 3 then .ok ⟨obsState c.bk 128, c.pm, .lit LitSt.begin⟩
  else if nib = 4 then .ok { c with at_ := .bswitch .lit .begin }
  else if nib = 5 then .ok { c with at_ := .bswitch .cmd .begin }
  else if nib = 6 then .ok { c with at_ := .bswitch .dist .begin }
  else if nib = 7 then .ok { c with at_ := .pm .begin }
  else if nib = 15 then .ok { c with at_ := .stop }
  else .fail

/-- A command is complete: update the bookkeeping, back to `Begin`.
`/repo/src/codec/mod.rs:702-706, 722-727, 798-800, 841-844, 859-900, 915-925`. -/
def finish (b : Bk) (p : Pm) (g : Got) : Core :=
  match g with
  | .copy d _ => ⟨{ b with dist := obsDistance b.dist d }, p, .begin⟩
  | .bswitch k t _ => ⟨obsBtype b k t, p, .begin⟩
  | _ => ⟨b, p, .begin⟩

/-- What both sides do with a nibble: the next state, and the command if it is now complete. -/
def coreTake (c : Core) (nib : Nat) : Res (Core × Option Got) :=
  match c.at_ with
  | .begin => (startTake c nib).bind fun c' => .ok (c', none)
  | .copy s =>
    (copyTake c.bk s nib).bind fun r =>
      if r.2.at_ = .done then
        .ok (finish r.1 c.pm (.copy r.2.distance r.2.num), some (.copy r.2.distance r.2.num))
      else .ok (⟨r.1, c.pm, .copy r.2⟩, none)
  | .dict s =>
    (dictTake s nib).bind fun s' =>
      if s'.at_ = .done then
        .ok (finish c.bk c.pm (.dict s'.size s'.id s'.transform),
          some (.dict s'.size s'.id s'.transform))
      else .ok (⟨c.bk, c.pm, .dict s'⟩, none)
  | .lit s =>
    (litTake c.bk s nib).bind fun r =>
      if r.2.at_ = .done then
        .ok (finish r.1 c.pm (.lit r.2.len r.2.highEntropy), some (.lit r.2.len r.2.highEntropy))
      else .ok (⟨r.1, c.pm, .lit r.2⟩, none)
  | .bswitch k s =>
    (bsTake c.bk k s nib).bind fun s' =>
      match s' with
      | .done t st => .ok (finish c.bk c.pm (.bswitch k t st), some (.bswitch k t st))
      | s' => .ok (⟨c.bk, c.pm, .bswitch k s'⟩, none)
  | .pm s =>
    (pmTake c.bk c.pm s nib).bind fun r =>
      if r.2.2 = .done then .ok (finish r.1 r.2.1 (.pm r.2.1), some (.pm r.2.1))
      else .ok (⟨r.1, r.2.1, .pm r.2.2⟩, none)
  | .stop => .panic

/-! ## Running the coder -/

/-- A nibble as it is handed to the entropy coder. -/
structure Sym where
  ask : Ask
  nib : Nat
  deriving DecidableEq, Repr

/-- One step of the encoder inside command `h`: the nibble it codes, the next state, and the command
if it is complete.  A nibble of 16 or more cannot be coded. -/
def encStep (o : Opts) (h : Head) (c : Core) : Res (Sym × Core × Option Got) :=
  match coreAsk c with
  | none => .panic
  | some a =>
    (coreOffer o h c).bind fun nib =>
      if nib < 16 then (coreTake c nib).bind fun r => .ok (⟨a, nib⟩, r.1, r.2) else .panic

/-- Encode one command: steps until it is complete.  `none`: out of fuel. -/
def encCmd (o : Opts) (h : Head) : Nat → Core → Option (Res (List Sym × Core × Got))
  | 0, _ => none
  | fuel + 1, c =>
    match encStep o h c with
    | .fail => some .fail
    | .panic => some .panic
    | .ok (y, c', some g) => some (.ok ([y], c', g))
    | .ok (y, c', none) =>
      (encCmd o h fuel c').map fun r => r.bind fun q => .ok (y :: q.1, q.2.1, q.2.2)

/-- The end marker, sent by `flush`: command type `0xf`.  `/repo/src/codec/mod.rs:146-148, 428-470`. -/
def encEnd (c : Core) : Res (List Sym × Core) :=
  match coreAsk c with
  | none => .panic
  | some a => (startTake c 15).bind fun c' => .ok ([⟨a, 15⟩], c')

/-- Encode a list of commands and the end marker.  The result also lists what the encoder itself takes
as the decoded commands. -/
def encAll (o : Opts) (fuel : Nat) : List Head → Core → Option (Res (List Sym × Core × List Got))
  | [], c => some ((encEnd c).bind fun r => .ok (r.1, r.2, []))
  | h :: t, c =>
    match encCmd o h fuel c with
    | none => none
    | some .fail => some .fail
    | some .panic => some .panic
    | some (.ok (ys, c', g)) =>
      (encAll o fuel t c').map fun r => r.bind fun q => .ok (ys ++ q.1, q.2.1, g :: q.2.2)

/-- The decoder fed with nibbles: it stops after the end marker (leaving the rest), otherwise it is
waiting for more.  The commands completed so far are returned too. -/
def decAll : Core → List Nat → Res (Core × List Got × List Nat)
  | c, [] => .ok (c, [], [])
  | c, n :: t =>
    if c.at_ = .stop then .ok (c, [], n :: t)
    else
      (coreTake c n).bind fun r =>
        (decAll r.1 t).bind fun q =>
          .ok (q.1, (match r.2 with | none => q.2.1 | some g => g :: q.2.1), q.2.2)

end Divans.Codec
