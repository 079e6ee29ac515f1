import Verif.Num
import Verif.Cdf
import Verif.Weights

/-!
# The command coder: bookkeeping

Model of the bookkeeping shared by encoder and decoder of the command stream
(`/repo/src/codec/interface.rs`, `/repo/src/codec/priors.rs`, `/repo/src/priors.rs`).

Conventions.  `Res.fail` is `DivansResult::Failure`, `Res.panic` a panic of the program (arithmetic
overflow of a debug build, failed assertion, index out of range).  Values of type `u8` that are stored
are `UInt8`; `u32` values and nibbles are `Nat`, with the bound stated where it matters.
-/

namespace Divans.Codec
open Divans.Num Divans.Cdf

/-- Outcome of a step: `Failure`, a panic, or a result. -/
inductive Res (α : Type) where
  | ok (a : α)
  | fail
  | panic
  deriving DecidableEq, Repr

/-- Continue with the result, if there is one. -/
def Res.bind {α β : Type} : Res α → (α → Res β) → Res β
  | .ok a, f => f a
  | .fail, _ => .fail
  | .panic, _ => .panic

/-- A missing value is a panic. -/
def Res.ofOption {α : Type} : Option α → Res α
  | some a => .ok a
  | none => .panic

/-! ## Adaptation speeds -/

/-- `Speed::MUD`, `/repo/src/probability/interface.rs:323`. -/
def mud : Speed := ⟨0x10, 0x2000⟩
/-- `Speed::SLOW`, `/repo/src/probability/interface.rs:324`. -/
def slow : Speed := ⟨0x20, 0x1000⟩
/-- `Speed::MED`, `/repo/src/probability/interface.rs:325`. -/
def med : Speed := ⟨0x30, 0x4000⟩
/-- `Speed::FAST`, `/repo/src/probability/interface.rs:326`. -/
def fast : Speed := ⟨0x60, 0x4000⟩
/-- `Speed::PLANE`, `/repo/src/probability/interface.rs:327`. -/
def plane : Speed := ⟨0x80, 0x4000⟩
/-- `Speed::ROCKET`, `/repo/src/probability/interface.rs:328`. -/
def rocket : Speed := ⟨0x180, 0x4000⟩

/-! ## Tables of adaptive models -/

/-- The tables of adaptive models of the command coder, `/repo/src/codec/interface.rs:143-155`. -/
inductive Tab where
  | cc | lit | copy | dict | btype | pm
  deriving DecidableEq, Repr

/-- The kinds of models, `/repo/src/codec/priors.rs:18-141` and `CrossCommandBilling`. -/
inductive Kind where
  | fullSelection | endIndicator
  | litCountSmall | litSizeBeg | litSizeLast | litSizeMantissa
  | distBeg | distMnemonic | distLast | distMantissa
  | countSmall | countBeg | countLast | countMantissa
  | dictSizeBeg | dictSizeLast | dictIndex | dictTransform
  | btMnemonic | btFirst | btSecond | btStride
  | pmOnly | pmLiteralSpeed | pmFirst | pmSecond | pmMnemonic | pmMixingValue | pmPalette
  | pmMixing | pmDepth
  deriving DecidableEq, Repr

/-- Layout of each table: kinds with their dimensions, in the order of
`/repo/src/codec/priors.rs:12-14, 39-43, 75-83, 93-97, 106-110, 125-133`.  The prediction mode table
has no entry for `pmMixing` (`DynamicContextMixingSpeed`) and `pmDepth` (`PriorDepth`). -/
def layout : Tab → List (Kind × List Nat)
  | .cc => [(.fullSelection, [16, 1]), (.endIndicator, [1, 256])]
  | .lit => [(.litCountSmall, [256, 16]), (.litSizeBeg, [256]), (.litSizeLast, [256]),
      (.litSizeMantissa, [256])]
  | .copy => [(.distBeg, [256, 64]), (.distMnemonic, [256, 2]), (.distLast, [256, 1]),
      (.distMantissa, [256, 5]), (.countSmall, [256, 64]), (.countBeg, [256, 64]),
      (.countLast, [256, 64]), (.countMantissa, [256, 64])]
  | .dict => [(.dictSizeBeg, [256]), (.dictSizeLast, [256]), (.dictIndex, [256, 5]),
      (.dictTransform, [2, 25])]
  | .btype => [(.btMnemonic, [3]), (.btFirst, [3]), (.btSecond, [3]), (.btStride, [1])]
  | .pm => [(.pmOnly, [1]), (.pmLiteralSpeed, [1]), (.pmFirst, [2]), (.pmSecond, [2]),
      (.pmMnemonic, [4]), (.pmMixingValue, [17]), (.pmPalette, [4])]

/-- `linearize_index!`, `/repo/src/priors.rs:211-224`; `none` when an index is out of bounds or the
number of dimensions differs. -/
def linearize : List Nat → List Nat → Option Nat
  | [d], [i] => if i < d then some i else none
  | d :: ds, i :: is =>
    if i < d then (linearize ds is).map fun r => i + d * r else none
  | _, _ => none

/-- `define_prior_struct_helper_collapse_index!`, `/repo/src/priors.rs:226-237`: the last entry is
taken without looking at the kind. -/
def collapse (kind : Kind) (idx : List Nat) : List (Kind × List Nat) → Option Nat
  | [] => none
  | [(_, dims)] => linearize dims idx
  | (k, dims) :: rest =>
    if kind = k then linearize dims idx
    else (collapse kind idx rest).map fun r => dims.prod + r

/-- Number of models of a table (`NUM_ALL_PRIORS`), `/repo/src/priors.rs:91, 245-248`. -/
def tabSize (t : Tab) : Nat := ((layout t).map fun e => e.2.prod).sum

/-- A model of the command coder: a table and a position in it. -/
abbrev Key := Tab × Nat

/-- `get`, `/repo/src/priors.rs:114-123`. -/
def key? (t : Tab) (kind : Kind) (idx : List Nat) : Option Key :=
  (collapse kind idx (layout t)).bind fun i => if i < tabSize t then some (t, i) else none

/-- How the next nibble is coded: with which model, and at which speed that model adapts. -/
structure Ask where
  key : Key
  speed : Speed
  deriving DecidableEq, Repr

/-- Look up the model and pair it with the speed. -/
def ask? (t : Tab) (kind : Kind) (idx : List Nat) (speed : Speed) : Option Ask :=
  (key? t kind idx).map fun k => ⟨k, speed⟩

/-! ## Bookkeeping -/

/-- The four most recent copy distances, `distance_lru`, `/repo/src/codec/interface.rs:153`. -/
structure Lru4 where
  d0 : Nat
  d1 : Nat
  d2 : Nat
  d3 : Nat
  deriving DecidableEq, Repr

/-- `distance_lru[i]`. -/
def Lru4.get (l : Lru4) : Nat → Nat
  | 0 => l.d0
  | 1 => l.d1
  | 2 => l.d2
  | _ => l.d3

/-- The three kinds of block switches, `/repo/src/codec/interface.rs:45-47`. -/
inductive Switch where
  | lit | cmd | dist
  deriving DecidableEq, Repr

/-- The number of a kind of block switch, `/repo/src/codec/interface.rs:45-47`. -/
def Switch.index : Switch → Nat
  | .lit => 0
  | .cmd => 1
  | .dist => 2

/-- Current and previous block type and the largest seen, `/repo/src/codec/interface.rs:155-156`. -/
structure BType where
  cur : UInt8
  prev : UInt8
  maxSeen : UInt8
  deriving DecidableEq, Repr

/-- `CrossCommandBookKeeping` without the tables of models and without the encoder options,
`/repo/src/codec/interface.rs:141-168`. -/
structure Bk where
  dist : Lru4
  blit : BType
  bcmd : BType
  bdist : BType
  lastDlen : Nat
  lastClen : Nat
  lastLlen : Nat
  last4 : Nat
  cmap : List UInt8
  distMap : List UInt8
  deriving DecidableEq, Repr

/-- The block types of one kind. -/
def Bk.btype (b : Bk) : Switch → BType
  | .lit => b.blit
  | .cmd => b.bcmd
  | .dist => b.bdist

/-- Initial bookkeeping, `/repo/src/codec/interface.rs:367-398`; the distance context map is freshly
allocated memory (`/repo/src/codec/interface.rs:737`), taken to be zero as the allocators used provide
it. -/
def Bk.init : Bk :=
  { dist := ⟨4, 11, 15, 16⟩
    blit := ⟨0, 1, 0⟩
    bcmd := ⟨0, 1, 0⟩
    bdist := ⟨0, 1, 0⟩
    lastDlen := 1
    lastClen := 1
    lastLlen := 1
    last4 := 3 * 2 ^ 4
    cmap := List.replicate 13 0
    distMap := List.replicate 1024 0 }

/-- `round_up_mod_4`, `/repo/src/codec/interface.rs:180-182`; 0 underflows. -/
def roundUp4 (v : Nat) : Option Nat := if v = 0 then none else some (((v - 1) ||| 3) + 1)

/-- `get_distance_prior`, `/repo/src/codec/interface.rs:426-430`. -/
def distPrior (b : Bk) (copyLen : Nat) : Option UInt8 :=
  b.distMap[b.bdist.cur.toNat * 4 + min (max copyLen 2 - 2) 3]?

/-- `reset_context_map_lru`, `/repo/src/codec/interface.rs:431-433`. -/
def resetCmap (b : Bk) : Bk := { b with cmap := (List.range 13).map fun i => UInt8.ofNat i }

/-- `reset_distance_context_map`, `/repo/src/codec/interface.rs:434-438`. -/
def resetDistMap (b : Bk) : Bk :=
  { b with distMap := (List.range b.distMap.length).map fun i => UInt8.ofNat (i % 4) }

/-- The recency list after using `val`: an occurrence is moved to the front, otherwise the oldest
entry is dropped.  `/repo/src/codec/interface.rs:439-453`. -/
def touch (lru : List UInt8) (val : UInt8) : List UInt8 :=
  if lru.idxOf val < lru.length then
    val :: (lru.take (lru.idxOf val) ++ lru.drop (lru.idxOf val + 1))
  else val :: lru.take (lru.length - 1)

/-- Which of the two context maps, `/repo/src/codec/interface.rs:117-120`. -/
inductive MapKind where
  | lit | dist
  deriving DecidableEq, Repr

/-- `context_map_type as usize`. -/
def MapKind.index : MapKind → Nat
  | .lit => 0
  | .dist => 1

/-- `obs_context_map_for_lru`, `/repo/src/codec/interface.rs:439-467`. -/
def obsCmap (b : Bk) (k : MapKind) (index : Nat) (val : UInt8) : Res Bk :=
  let b' := { b with cmap := touch b.cmap val }
  match k with
  | .lit => .ok b'
  | .dist =>
    if index < b.distMap.length then .ok { b' with distMap := b.distMap.set index val } else .fail

/-- `get_distance_from_mnemonic_code`, `/repo/src/codec/interface.rs:979-1011`: the distance and
whether it is acceptable.  `none` when the `i32` addition overflows. -/
def fromMnemonic (l : Lru4) (code : Nat) : Option (Nat × Bool) :=
  if code < 4 then some (l.get code, true)
  else
    let u : Int := ((code / 4 : Nat) : Int)
    let signed : Int := if code % 2 = 1 then u - 2 * u else u
    let sum := i32 (l.get (code % 4 / 2)) + signed
    if i32 sum = sum then some ((sum % 2 ^ 32).toNat, decide (0 < sum)) else none

/-- The search loop of `distance_mnemonic_code`, `/repo/src/codec/interface.rs:470-475`. -/
def findMnemonic (l : Lru4) (d : Nat) : List Nat → Option Nat
  | [] => some 15
  | i :: rest =>
    match fromMnemonic l i with
    | none => none
    | some (item, ok) => if item = d ∧ ok = true then some i else findMnemonic l d rest

/-- `distance_mnemonic_code`, `/repo/src/codec/interface.rs:469-477`. -/
def mnemonicCode (l : Lru4) (d : Nat) : Option Nat := findMnemonic l d (List.range 15)

/-- `obs_distance`, `/repo/src/codec/interface.rs:509-527`. -/
def obsDistance (l : Lru4) (d : Nat) : Lru4 :=
  if d = l.d1 then ⟨d, l.d0, l.d2, l.d3⟩
  else if d = l.d2 then ⟨d, l.d0, l.d1, l.d3⟩
  else if d ≠ l.d0 then ⟨d, l.d0, l.d1, l.d2⟩
  else l

/-- `obs_dict_state` and its relatives: shift the history of command kinds and mark the newest,
`/repo/src/codec/interface.rs:493-508`. -/
def obsState (b : Bk) (mark : Nat) : Bk := { b with last4 := (b.last4 / 4) ||| mark }

/-- `_obs_btype_helper` for one kind, `/repo/src/codec/interface.rs:528-532`. -/
def BType.obs (t : BType) (v : UInt8) : BType := ⟨v, t.cur, max t.maxSeen v⟩

/-- `obs_btypel`, `obs_btypec`, `obs_btyped`, `/repo/src/codec/interface.rs:528-541`. -/
def obsBtype (b : Bk) (k : Switch) (v : UInt8) : Bk :=
  let b' := { b with last4 := b.last4 / 4 }
  match k with
  | .lit => { b' with blit := b.blit.obs v }
  | .cmd => { b' with bcmd := b.bcmd.obs v }
  | .dist => { b' with bdist := b.bdist.obs v }

/-- `get_command_block_type`, `/repo/src/codec/interface.rs:478-480`. -/
def Bk.ctype (b : Bk) : Nat := b.bcmd.cur.toNat

/-! ## Commands -/

/-- The speeds a prediction mode command carries (as bytes of the 8-bit float format):
context map, stride, and stride when combined with the context map.
`/repo/src/codec/context_map.rs:124-146`. -/
structure PmSpeeds where
  cm0 : Nat × Nat
  cm1 : Nat × Nat
  stride0 : Nat × Nat
  stride1 : Nat × Nat
  comb0 : Nat × Nat
  comb1 : Nat × Nat
  deriving DecidableEq, Repr

/-- A prediction mode command given to the encoder.  The accessors of `PredictionModeContextMap` live
in the external brotli crate; the model takes their results.  `speeds = none` stands for
`has_context_speeds() == false`; then distance map and mixing values are not read. -/
structure PmIn where
  mode : Nat
  adv : Nat
  speeds : Option PmSpeeds
  litMap : List UInt8
  distMap : List UInt8
  mixing : List Nat
  deriving DecidableEq, Repr

/-- The prediction mode buffer both sides fill in (`state_prediction_mode.pm`,
`/repo/src/codec/context_map.rs:84-96`).  The setters live in the brotli crate; they are taken to
store into separate fields. -/
structure Pm where
  mode : Nat
  mixMath : Nat
  adv : Nat
  speeds : List (Nat × Nat)
  litMap : List UInt8
  distMap : List UInt8
  mixing : List Nat
  deriving DecidableEq, Repr

/-- A fresh buffer: `MAX_LITERAL_CONTEXT_MAP_SIZE = 16384` zero bytes, 1024 distance map bytes, 8192
mixing values. -/
def Pm.init : Pm :=
  ⟨0, 0, 0, List.replicate 4 (0, 0), List.replicate 16384 0, List.replicate 1024 0,
    List.replicate 8192 0⟩

/-- A command as the command stream sees it: of a literal only its length and entropy flag, of a
dictionary command word size, word index and transform.  `Command`, `/repo/src/interface.rs`. -/
inductive Head where
  | copy (distance num : Nat)
  | dict (size id transform : Nat)
  | lit (len : Nat) (highEntropy : Bool)
  | bswitch (k : Switch) (t : UInt8) (stride : Nat)
  | pm (p : PmIn)
  deriving DecidableEq, Repr

/-- What the receiver has after a command: for a literal the number of bytes to read from the literal
stream, for a prediction mode the buffer. -/
inductive Got where
  | copy (distance num : Nat)
  | dict (size id transform : Nat)
  | lit (len : Nat) (highEntropy : Bool)
  | bswitch (k : Switch) (t : UInt8) (stride : Nat)
  | pm (p : Pm)
  deriving DecidableEq, Repr

/-- The options of the encoder that influence what it sends, `/repo/src/codec/interface.rs:163-167`. -/
structure Opts where
  priorDepth : Nat
  adaptation : Option (Speed × Speed × Speed × Speed)
  doContextMap : Bool
  forceStride : Nat
  mixing : Nat
  deriving DecidableEq, Repr

end Divans.Codec
