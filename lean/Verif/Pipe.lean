import Verif.Lit
import Verif.Recode

/-!
# Compressor and decompressor around the two streams

The compressor side turns commands into nibbles of two entropy coded streams: one for the commands
and one for the bytes of literals.  The decompressor side is split: a worker decodes the command
stream and passes commands on, the main side decodes literals and fills the ring buffer.  The worker
may run on a thread of its own, so its steps, those of the main side and the arrival of bytes may come
in any order.
-/

namespace Divans.Pipe
open Divans.Adaptive

/-- A command, with the bytes of a literal.  `Command`, `/repo/src/interface.rs`; the external
probabilities of literals are not modelled. -/
inductive Item where
  | copy (distance num : Nat)
  | dict (size id transform : Nat)
  | lit (data : List UInt8) (highEntropy : Bool)
  | bswitch (k : Codec.Switch) (t : UInt8) (stride : Nat)
  | pm (p : Codec.PmIn)
  deriving DecidableEq, Repr

/-- What of it the command stream sees. -/
def Item.head : Item → Codec.Head
  | .copy d n => .copy d n
  | .dict z i t => .dict z i t
  | .lit data e => .lit data.length e
  | .bswitch k t st => .bswitch k t st
  | .pm p => .pm p

/-- What of it the recoder sees.  `dw size id transform` is the transformed word of the brotli
dictionary; the final size in the command is taken to be its length (the codec computes it with the
same transform, `/repo/src/codec/dict.rs`, and lengths do not depend on the letters). -/
def Item.ringCmd (dw : Nat → Nat → Nat → List UInt8) : Item → Recode.Cmd
  | .copy d n => .copy d n
  | .dict z i t => .dict (dw z i t) (dw z i t).length
  | .lit data _ => .lit data
  | .bswitch _ _ _ => .other
  | .pm _ => .other

/-! ## Compressor -/

/-- The compressor: command coder, literal bookkeeping, recoder. -/
structure Snd where
  core : Codec.Core
  lbk : Lit.Lbk
  ring : Recode.St

/-- The nibbles of a command as handed to the entropy coder of the command stream. -/
def symTrace (ys : List Codec.Sym) : Trace Codec.Key Unit :=
  ys.map fun y => (.plain y.ask.key (some y.ask.speed), y.nib)

/-- The compressor runs each command through its own recoder, with a scratch buffer of `room` bytes
(128 in the code) the contents of which are dropped, until it succeeds.
`/repo/src/codec/mod.rs:747-767`, `/repo/src/codec/io.rs:113-145`,
`/repo/src/cmd_to_divans/mod.rs:94-104`. -/
def pump (room : Nat) (c : Recode.Cmd) : Nat → Recode.St → Option (Codec.Res Recode.St)
  | 0, _ => none
  | fuel + 1, s =>
    match Recode.encodeCmd s c room with
    | .done (s', _, .ok) => some (.ok s')
    | .done (s', _, .more) => pump room c fuel s'
    | .done (_, _, .fail) => some .fail
    | .panic => some .panic
    | .spin => none

/-- `PopulateRingBuffer` on the compressor, `/repo/src/codec/mod.rs:730-786`. -/
def Snd.populate (room fuel : Nat) (s : Snd) (c : Recode.Cmd) : Option (Codec.Res Snd) :=
  (pump room c fuel s.ring).map fun r => r.bind fun ring =>
    match Recode.last8 ring with
    | none => .panic
    | some b => .ok { s with ring := ring, lbk := { s.lbk with last8 := Lit.pack8 b } }

/-- What the compressor does besides coding the command itself.
`/repo/src/codec/mod.rs:689-925`. -/
def Snd.effect (dw : Nat → Nat → Nat → List UInt8) (room fuel : Nat) (s : Snd) (x : Item)
    (g : Codec.Got) : Option (Codec.Res (Trace Lit.Key Bool × Snd)) :=
  match x with
  | .lit data _ =>
    match Lit.sendBytes s.lbk data with
    | none => some .panic
    | some (tr, l) =>
      (Snd.populate room fuel { s with lbk := l } (.lit data)).map fun r => r.bind fun s' => .ok (tr, s')
  | .copy _ _ | .dict _ _ _ =>
    (Snd.populate room fuel s (x.ringCmd dw)).map fun r => r.bind fun s' => .ok ([], s')
  | .bswitch .lit t _ => some (.ok ([], { s with lbk := s.lbk.obsBtype t }))
  | .bswitch _ _ _ => some (.ok ([], s))
  | .pm _ =>
    match g with
    | .pm p => some ((s.lbk.obsPm p).bind fun l => .ok ([], { s with lbk := l }))
    | _ => some .panic

/-- One command, `encode_or_decode_one_command`, `/repo/src/codec/mod.rs:652-1024`. -/
def Snd.item (o : Codec.Opts) (dw : Nat → Nat → Nat → List UInt8) (room fuel : Nat) (s : Snd)
    (x : Item) : Option (Codec.Res (Trace Codec.Key Unit × Trace Lit.Key Bool × Snd)) :=
  match Codec.encCmd o x.head fuel s.core with
  | none => none
  | some .fail => some .fail
  | some .panic => some .panic
  | some (.ok (ys, c, g)) =>
    (Snd.effect dw room fuel { s with core := c } x g).map fun r => r.bind fun q =>
      .ok (symTrace ys, q.1, q.2)

/-- A list of commands and the end marker: the nibbles of both streams. -/
def sendAll (o : Codec.Opts) (dw : Nat → Nat → Nat → List UInt8) (room fuel : Nat) :
    List Item → Snd → Option (Codec.Res (Trace Codec.Key Unit × Trace Lit.Key Bool))
  | [], s => some ((Codec.encEnd s.core).bind fun r => .ok (symTrace r.1, []))
  | x :: xs, s =>
    match Snd.item o dw room fuel s x with
    | none => none
    | some .fail => some .fail
    | some .panic => some .panic
    | some (.ok (tc, tl, s')) =>
      (sendAll o dw room fuel xs s').map fun r => r.bind fun q => .ok (tc ++ q.1, tl ++ q.2)

/-- A fresh compressor with a ring of `L` bytes. -/
def Snd.init (L : Nat) : Snd := ⟨Codec.Core.init, Lit.Lbk.init, Recode.St.new (List.replicate L 0)⟩

/-! ## Decompressor -/

/-- Where the main side is. -/
inductive MainAt where
  /-- between commands -/
  | idle
  /-- inside the bytes of a literal -/
  | content (c : Lit.Content)
  /-- handing a command to the recoder -/
  | filling (c : Recode.Cmd)
  /-- everything has been given out -/
  | finished
  deriving DecidableEq, Repr

/-- The decompressor: the worker's entropy decoder and command decoder, the commands on their way to
the main side, the literal decoder, the literal bookkeeping and the recoder.
`/repo/src/codec/decoder.rs:43-68`. -/
structure Rcv where
  cmdRx : Rx Codec.Key Unit
  core : Codec.Core
  queue : List Codec.Got
  litRx : Rx Lit.Key Bool
  lbk : Lit.Lbk
  ring : Recode.St
  at_ : MainAt

/-- A fresh decompressor with a ring of `L` bytes. -/
def Rcv.init (L : Nat) : Rcv :=
  ⟨Rx.init, Codec.Core.init, [], Rx.init, Lit.Lbk.init, Recode.St.new (List.replicate L 0), .idle⟩

/-- The commands the worker passes on: not the block switches of the command and distance types.
`/repo/src/codec/mod.rs:689-925`. -/
def forwarded : Codec.Got → Bool
  | .bswitch .lit _ _ => true
  | .bswitch _ _ _ => false
  | _ => true

/-- One step of the worker: one nibble of the command stream, if enough bytes are there.  After the
end marker it does nothing more.  `/repo/src/codec/mod.rs:562-1024` with an isolated demuxer. -/
def Rcv.worker (r : Rcv) : Codec.Res Rcv :=
  if r.core.at_ = .stop then .ok r
  else
    match Codec.coreAsk r.core with
    | none => .panic
    | some a =>
      match r.cmdRx.step (.plain a.key (some a.speed)) with
      | (rx, none) => .ok { r with cmdRx := rx }
      | (rx, some n) =>
        (Codec.coreTake r.core n).bind fun x =>
          .ok { r with cmdRx := rx, core := x.1, queue := r.queue ++ x.2.toList.filter forwarded }

/-- The next command is taken up, `/repo/src/codec/decoder.rs:350-416`. -/
def Rcv.next (dw : Nat → Nat → Nat → List UInt8) (r : Rcv) (g : Codec.Got) : Codec.Res Rcv :=
  match g with
  | .copy d n => .ok { r with at_ := .filling (.copy d n) }
  | .dict z i t => .ok { r with at_ := .filling (.dict (dw z i t) (dw z i t).length) }
  | .lit n _ =>
    match Recode.last8 r.ring with
    | none => .panic
    | some b =>
      .ok { r with lbk := { r.lbk with last8 := Lit.pack8 b }, at_ := .content ⟨n, none, []⟩ }
  | .bswitch .lit t _ => .ok { r with lbk := r.lbk.obsBtype t }
  | .bswitch _ _ _ => .ok { r with at_ := .filling .other }
  | .pm p => (r.lbk.obsPm p).bind fun l => .ok { r with lbk := l }

/-- One step of the main side with `room` bytes of output space; also returns the bytes given out.
`/repo/src/codec/decoder.rs:165-213, 230-419`.  The code fetches input for the entropy decoder after
each nibble, here that is done before the next; which is the same, as it takes no more than it needs.
A loop of the recoder that does not end counts as a panic. -/
def Rcv.main (dw : Nat → Nat → Nat → List UInt8) (r : Rcv) (room : Nat) :
    Codec.Res (Rcv × List UInt8) :=
  match r.at_ with
  | .idle =>
    match r.queue with
    | g :: q => (Rcv.next dw { r with queue := q } g).bind fun r' => .ok (r', [])
    | [] =>
      if r.core.at_ = .stop then
        match Recode.flush r.ring room with
        | none => .panic
        | some (ring, o, .ok) => .ok ({ r with ring := ring, at_ := .finished }, o)
        | some (ring, o, .more) => .ok ({ r with ring := ring }, o)
        | some (_, _, .fail) => .fail
      else .ok (r, [])
  | .content c =>
    if c.left = 0 then .ok ({ r with at_ := .filling (.lit c.done.reverse) }, [])
    else
      match c.ask r.lbk with
      | none => .panic
      | some ch =>
        match r.litRx.step ch with
        | (rx, none) => .ok ({ r with litRx := rx }, [])
        | (rx, some n) =>
          .ok ({ r with litRx := rx, lbk := (c.take r.lbk n).1, at_ := .content (c.take r.lbk n).2 }, [])
  | .filling c =>
    match Recode.encodeCmd r.ring c room with
    | .done (ring, o, .ok) => .ok ({ r with ring := ring, at_ := .idle }, o)
    | .done (ring, o, .more) => .ok ({ r with ring := ring }, o)
    | .done (_, _, .fail) => .fail
    | .panic => .panic
    | .spin => .panic
  | .finished => .ok (r, [])

/-- What can happen next. -/
inductive Act where
  | cmdBytes (p : List UInt8)
  | litBytes (p : List UInt8)
  | worker
  | main (room : Nat)
  deriving DecidableEq, Repr

/-- One step of the system, with the bytes given out. -/
def Rcv.act (dw : Nat → Nat → Nat → List UInt8) (r : Rcv) : Act → Codec.Res (Rcv × List UInt8)
  | .cmdBytes p => .ok ({ r with cmdRx := r.cmdRx.push p }, [])
  | .litBytes p => .ok ({ r with litRx := r.litRx.push p }, [])
  | .worker => r.worker.bind fun r' => .ok (r', [])
  | .main room => r.main dw room

/-- A run: the final state and all bytes given out. -/
def run (dw : Nat → Nat → Nat → List UInt8) : Rcv → List Act → Codec.Res (Rcv × List UInt8)
  | r, [] => .ok (r, [])
  | r, a :: as =>
    (r.act dw a).bind fun x => (run dw x.1 as).bind fun y => .ok (y.1, x.2 ++ y.2)

/-- The bytes of the command stream that arrive in a schedule. -/
def cmdArrived : List Act → List UInt8
  | [] => []
  | .cmdBytes p :: as => p ++ cmdArrived as
  | _ :: as => cmdArrived as

/-- The bytes of the literal stream that arrive in a schedule. -/
def litArrived : List Act → List UInt8
  | [] => []
  | .litBytes p :: as => p ++ litArrived as
  | _ :: as => litArrived as

end Divans.Pipe
