import Verif.Pipe
import Verif.Frame

/-!
# The compressing codec and its output

The compressor writes each nibble to one of two entropy coders, and a coder that has output ready must
hand it to the multiplexer, and the multiplexer to the caller's buffer, before the next nibble.  When
the buffer is full the codec stops in the middle of a command and goes on from there in the next call.
This file models that code, `/repo/src/codec/mod.rs` with `Specialization` =
`EncoderSpecialization`.
-/

namespace Divans.Eng
open Divans.Adaptive Divans.Pipe

/-- The steps of coding one command, seen from the output: hand over what a coder has ready or stop,
put a nibble, hand over what a coder has ready as far as possible, shut a coder down.  `false` is the
command coder, `true` that of the literals. -/
inductive Micro where
  /-- `drain_or_fill_internal_buffer`, with a return unless it succeeds -/
  | need (i : Bool)
  /-- `get_or_put_nibble` -/
  | put (i : Bool) (sl : Ans.Slot)
  /-- `drain_or_fill_internal_buffer` with its result ignored -/
  | attempt (i : Bool)
  /-- `close` -/
  | close (i : Bool)
  deriving DecidableEq, Repr

/-- The codec: container and multiplexer, command and literal bookkeeping, the models of both streams,
both entropy coders, the command in progress with the steps left, and, once the end marker is written,
the steps left until the coders are shut down and empty.  `/repo/src/codec/mod.rs:160-186`.
Simplification: the nibbles of a command and all changes of bookkeeping and models are determined when
the command is begun; the code interleaves them with the output, which they do not depend on. -/
structure Eng where
  cmp : Frame.Cmp
  snd : Snd
  sesC : Session Codec.Key Unit
  sesL : Session Lit.Key Bool
  enc : Bool → Ans.Enc
  cur : Option (Item × List Micro)
  ending : Option (List Micro)

/-- A new codec; the window size is an option of the compressor.
`/repo/src/divans_compressor.rs:90-121`. -/
def Eng.new (window : Option Int) : Eng :=
  ⟨.new (Frame.windowOf window), Snd.init (2 ^ (Frame.windowOf window).toNat), Session.init, Session.init,
    fun _ => .init, none, none⟩

/-- The free space behind the data of a stream's buffer that `write_buffer` offers.
`/repo/src/mux.rs:169-188`. -/
def space (m : Mux.Mux) (i : Bool) : Option Nat :=
  (Mux.prepPush (m.buf i) 16).map fun b => b.mem.length - b.stop

/-- `drain_or_fill_static_buffer` of the compressor with `room` bytes of output left: while the coder
has output, the multiplexer writes what it can, then as much of the coder's output as fits goes to the
multiplexer; it stops when that was not all and the output is full.  The result says whether it
succeeded.  The first argument bounds the number of rounds.  `/repo/src/codec/interface.rs:868-896`. -/
def drain (i : Bool) : Nat → Eng → Nat → Option (Eng × List UInt8 × Bool)
  | 0, _, _ => none
  | fuel + 1, e, room =>
    if (e.enc i).q = [] then some (e, [], true)
    else
      match e.cmp.code (.serialize room) with
      | none => none
      | some (c1, out) =>
        match space c1.mux i with
        | none => none
        | some n =>
          match c1.code (.fill i ((e.enc i).pop n).1) with
          | none => none
          | some (c2, _) =>
            let e' := { e with cmp := c2, enc := Mux.upd e.enc i ((e.enc i).pop n).2 }
            if (e'.enc i).q = [] then some (e', out, true)
            else if out.length = room then some (e', out, false)
            else (drain i fuel e' (room - out.length)).map fun x => (x.1, out ++ x.2.1, x.2.2)

/-- Perform steps until they are done or the output is full; also returns the steps left. -/
def steps : List Micro → Eng → Nat → Option (Eng × List UInt8 × List Micro)
  | [], e, _ => some (e, [], [])
  | .need i :: r, e, room =>
    match drain i ((e.enc i).q.length + 1) e room with
    | none => none
    | some (e', out, false) => some (e', out, .need i :: r)
    | some (e', out, true) =>
      (steps r e' (room - out.length)).map fun x => (x.1, out ++ x.2.1, x.2.2)
  | .attempt i :: r, e, room =>
    match drain i ((e.enc i).q.length + 1) e room with
    | none => none
    | some (e', out, _) =>
      (steps r e' (room - out.length)).map fun x => (x.1, out ++ x.2.1, x.2.2)
  | .put i sl :: r, e, room =>
    if (e.enc i).q = [] then
      match (e.enc i).put sl with
      | none => none
      | some c => steps r { e with enc := Mux.upd e.enc i c } room
    else none
  | .close i :: r, e, room =>
    if (e.enc i).q = [] then
      match (e.enc i).flushChunk with
      | none => none
      | some c => steps r { e with enc := Mux.upd e.enc i c } room
    else none

/-- Nibbles of one stream, each after its coder has been emptied. -/
def puts (i : Bool) (sls : List Ans.Slot) : List Micro := sls.flatMap fun sl => [.need i, .put i sl]

/-- How the steps of a command end, after the nibbles of the command stream: copies, prediction modes and
the smaller block switches leave only with an empty coder (`/repo/src/codec/copy.rs:73-77, 259-283`,
`block_type.rs:62-68, 105-107`, `context_map.rs:147-151, 423-425`), dictionary references and switches of
the literal block type do not look again (`dict.rs:160-170`, `block_type.rs:171-191`); a literal empties
the command coder (`literal.rs:533-556`), codes its bytes, and does not insist on emptying the literal
coder at the end (`literal.rs:293-394, 425-488`). -/
def tail (x : Item) (sl : List Ans.Slot) : List Micro :=
  match x with
  | .lit _ _ => .need false :: puts true sl ++ [.attempt true]
  | .dict _ _ _ | .bswitch .lit _ _ => []
  | _ => [.need false]

/-- All steps of a command from its nibbles of both streams. -/
def script (x : Item) (sc sl : List Ans.Slot) : List Micro := puts false sc ++ tail x sl

/-- Begin a command: `encode_or_decode_one_command` in state `Begin`, after the command coder has been
emptied; also returns the steps of the command.  `none` when a panic occurs (or the fuel of `Snd.item`
does not suffice), `some none` when it fails.  `/repo/src/codec/mod.rs:660-690`. -/
def Eng.start (o : Codec.Opts) (dw : Nat → Nat → Nat → List UInt8) (fuel : Nat) (e : Eng) (x : Item) :
    Option (Option (Eng × List Micro)) :=
  match Snd.item o dw 128 fuel e.snd x with
  | none => none
  | some .panic => none
  | some .fail => some none
  | some (.ok (tc, tl, s)) =>
    some (some ({ e with snd := s, sesC := sessionAfter e.sesC tc, sesL := sessionAfter e.sesL tl },
      script x (slotsOf e.sesC tc) (slotsOf e.sesL tl)))

/-- What a call reports: `NeedsMoreInput`, `NeedsMoreOutput`, `Success`, `Failure`. -/
inductive Code where
  | needsInput
  | needsOutput
  | success
  | failure
  deriving DecidableEq, Repr

/-- Go on with the command `x` that has the steps `r` left. -/
def Eng.go (e : Eng) (x : Item) (r : List Micro) (room : Nat) : Option (Eng × List UInt8 × Code) :=
  match steps r e room with
  | none => none
  | some (e', out, []) => some ({ e' with cur := none }, out, .success)
  | some (e', out, m :: r') => some ({ e' with cur := some (x, m :: r') }, out, .needsOutput)

/-- One command: go on with it if it is in progress, otherwise begin it.  A command in progress has to be
offered again; `none` if another one is offered.  `encode_or_decode_one_command`,
`/repo/src/codec/mod.rs:652-1024`. -/
def Eng.one (o : Codec.Opts) (dw : Nat → Nat → Nat → List UInt8) (fuel : Nat) (e : Eng) (x : Item)
    (room : Nat) : Option (Eng × List UInt8 × Code) :=
  match e.cur with
  | some (y, r) => if y = x then e.go x r room else none
  | none =>
    match steps [.need false] e room with
    | none => none
    | some (e', out, _ :: _) => some (e', out, .needsOutput)
    | some (e', out, []) =>
      match e'.start o dw fuel x with
      | none => none
      | some none => some (e', out, .failure)
      | some (some (e2, r)) =>
        (e2.go x r (room - out.length)).map fun z => (z.1, out ++ z.2.1, z.2.2)

/-- `encode_or_decode` on the commands not yet taken; also returns how many were taken.  With an empty
list the code panics (`get_input_command(0)`).  After the end marker commands are refused, or a panic
occurs once the checksum is being written.  `/repo/src/codec/mod.rs:560-650, 942-960, 1015-1017`. -/
def Eng.commands (o : Codec.Opts) (dw : Nat → Nat → Nat → List UInt8) (fuel : Nat) :
    List Item → Eng → Nat → Option (Eng × List UInt8 × Nat × Code)
  | [], _, _ => none
  | x :: xs, e, room =>
    match e.ending with
    | some _ =>
      match e.cmp.stage with
      | .done => some (e, [], 0, .success)
      | .check _ => none
      | _ => some (e, [], 0, .failure)
    | none =>
      match e.one o dw fuel x room with
      | none => none
      | some (e', out, .success) =>
        match xs with
        | [] => some (e', out, 1, .needsInput)
        | y :: ys =>
          (Eng.commands o dw fuel (y :: ys) e' (room - out.length)).map fun z =>
            (z.1, out ++ z.2.1, z.2.2.1 + 1, z.2.2.2)
      | some (e', out, r) => some (e', out, 0, r)

/-- The steps of `internal_flush` after the end marker's nibble: empty both coders, shut them down, empty
them again.  `/repo/src/codec/mod.rs:454-501`. -/
def shutdown : List Micro :=
  [.need false, .need true, .close false, .close true, .need false, .need true]

/-- The last part of `internal_flush`: the steps left, then multiplexer and trailer.
`/repo/src/codec/mod.rs:454-556`. -/
def Eng.finish (e : Eng) (r : List Micro) (room : Nat) : Option (Eng × List UInt8 × Code) :=
  match steps r e room with
  | none => none
  | some (e', out, m :: r') => some ({ e' with ending := some (m :: r') }, out, .needsOutput)
  | some (e', out, []) =>
    match e'.cmp.finish (room - out.length) with
    | none => none
    | some (c, out2, ok) =>
      some ({ e' with cmp := c, ending := some [] }, out ++ out2, if ok then .success else .needsOutput)

/-- `flush` of the codec, `/repo/src/codec/mod.rs:409-558`. -/
def Eng.flush (e : Eng) (room : Nat) : Option (Eng × List UInt8 × Code) :=
  match e.ending with
  | some r => e.finish r room
  | none =>
    match e.cur with
    | some _ => some (e, [], .failure)
    | none =>
      match steps [.need false] e room with
      | none => none
      | some (e', out, _ :: _) => some (e', out, .needsOutput)
      | some (e', out, []) =>
        match Codec.encEnd e'.snd.core with
        | .fail => some (e', out, .failure)
        | .panic => none
        | .ok (ys, _) =>
          let e2 : Eng := { e' with sesC := sessionAfter e'.sesC (symTrace ys) }
          (e2.finish ((slotsOf e'.sesC (symTrace ys)).map (Micro.put false) ++ shutdown)
            (room - out.length)).map fun z => (z.1, out ++ z.2.1, z.2.2)

/-- The header, before anything else in every call.  `/repo/src/divans_compressor.rs:281-287`. -/
def Eng.header (e : Eng) (room : Nat) : Eng × List UInt8 × Bool :=
  let h := e.cmp.header room
  ({ e with cmp := h.1 }, h.2.1, h.2.2)

/-- `encode_commands`: the caller offers the commands not yet taken.  `NeedsMoreInput` of the codec is
reported as `Success`.  `/repo/src/divans_compressor.rs:338-362`. -/
def Eng.encodeCommands (o : Codec.Opts) (dw : Nat → Nat → Nat → List UInt8) (fuel : Nat) (e : Eng)
    (xs : List Item) (room : Nat) : Option (Eng × List UInt8 × Nat × Code) :=
  match e.header room with
  | (e', w, false) => some (e', w, 0, .needsOutput)
  | (e', w, true) =>
    (e'.commands o dw fuel xs (room - w.length)).map fun z =>
      (z.1, w ++ z.2.1, z.2.2.1, if z.2.2.2 = .needsInput then .success else z.2.2.2)

end Divans.Eng
