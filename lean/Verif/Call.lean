import Verif.File

/-!
# The decompressor call by call

What one call of `decode` does, up to the value it returns: the loop of
`/repo/src/divans_decompressor.rs:110-163` around the three parts input, worker and output, with the
queues between the worker and the main side (`SerialWorker`, `/repo/src/threading.rs`) and the conditions
under which each part stops.  `Verif.File` has the same decoders under any schedule; here is the schedule
of the code.

The parts of a call are modelled as a machine that makes small steps.  Decompression with a thread of its
own for the worker (`multithread`) is not in this file.
-/

namespace Divans.Call
open Divans.Adaptive Divans.Pipe

/-- Where the worker is with a command it has decoded: nothing there; complete, but the entropy decoder is
filled up before the command is passed on; to be passed on (`PopulateRingBuffer`).
`/repo/src/codec/mod.rs:682-925`. -/
inductive Hold where
  | none
  | decoded (g : Codec.Got)
  | ready (g : Codec.Got)
  deriving DecidableEq, Repr

/-- The decompressor behind the header.

`b` has the main side (demultiplexer, checksum, trailer, literal decoder, recoder) and the decoders of the
worker; `b.rcv.queue` is the main side's `cmd_buffer` and `b.rcv.cmdRx.buf` the unread part of the buffer
the worker reads from (`ThreadToMainDemuxer::slice`), whose memory is `mem`.  `map`: the worker holds the
memory for a prediction mode command.  Then the queues of `SerialWorker`: buffers for the worker (`data`,
at most 2), memory for prediction modes (`maps`, `cm_len`), commands (`result`), buffers to be given back
(`back`, `result_data`).  Finally `cmd_buffer_contains_eof` and `outstanding_buffer_count`.
`/repo/src/codec/decoder.rs:43-68`, `/repo/src/threading.rs:91-105, 273-279`. -/
structure St where
  b : File.Body
  mem : List UInt8
  hold : Hold
  map : Bool
  data : List Mux.Buf
  maps : Nat
  result : List Codec.Got
  back : List (List UInt8)
  sawEnd : Bool
  lent : Nat

/-- Behind a header: everything empty; the worker's codec brings memory for one prediction mode.
`/repo/src/divans_decompressor.rs:212-284`, `/repo/src/codec/mod.rs:205-291`. -/
def St.init (skip : Bool) (h : List UInt8) (w : Nat) : St where
  b :=
    { mux := Mux.Mux.new
      crc := if skip then Crc.init else Crc.update Crc.init h
      sum := []
      rcv := Rcv.init (2 ^ w) }
  mem := []
  hold := .none
  map := true
  data := []
  maps := 0
  result := []
  back := []
  sawEnd := false
  lent := 0

/-- With another state of the worker's entropy decoder. -/
def St.setRx (s : St) (rx : Rx Codec.Key Unit) : St :=
  { s with b := { s.b with rcv := { s.b.rcv with cmdRx := rx } } }

/-! ## The worker -/

/-- `pull_if_necessary`: when the buffer is used up, give it back and take the next one; nothing happens
if there is no place to put it.  `/repo/src/threading.rs:296-326, 460-473, 519-534`. -/
def St.pull (s : St) : St :=
  if s.b.rcv.cmdRx.buf ≠ [] then s
  else if s.mem ≠ [] ∧ 2 ≤ s.back.length then s
  else
    let s1 := if s.mem = [] then s else { s with mem := [], back := s.back ++ [s.mem] }
    match s.data with
    | [] => s1
    | d :: ds => { s1.setRx { s1.b.rcv.cmdRx with buf := d.unread } with mem := d.mem, data := ds }

/-- `drain_or_fill_internal_buffer_cmd` of the worker: one look at the buffer, if the entropy decoder
wants bytes; is it satisfied?  `/repo/src/codec/interface.rs:690-696, 897-915`. -/
def St.fill (s : St) : St × Bool :=
  if s.b.rcv.cmdRx.dec.numPushAvail = 0 then (s, true)
  else
    let t := s.pull
    let p := t.b.rcv.cmdRx.dec.pushData t.b.rcv.cmdRx.buf
    (t.setRx ⟨t.b.rcv.cmdRx.ses, p.1, t.b.rcv.cmdRx.buf.drop p.2⟩, decide (p.1.numPushAvail = 0))

/-- A nibble from what is in the entropy decoder: `get_or_put_nibble`, `/repo/src/ans.rs:270-281`. -/
def take {κ ι : Type} [DecidableEq κ] [DecidableEq ι] (r : Rx κ ι) (ch : Choice κ ι) : Rx κ ι × Nat :=
  let x := (r.ses.coding ch).lookup r.dec.offset
  (⟨r.ses.after ch x.1, r.dec.advance x.2.toSlot, r.buf⟩, x.1)

/-- A prediction mode? -/
def isPm : Codec.Got → Bool
  | .pm _ => true
  | _ => false

/-- What the worker does next with a complete command.  Copies, literals and prediction modes are looked
at again after the entropy decoder was filled (`/repo/src/codec/copy.rs:74`, `literal.rs:536-556`,
`context_map.rs:148`); dictionary words and literal block switches are complete at once
(`dict.rs:150-199`, `block_type.rs:172-230`); the other block switches are not passed on. -/
def holdFor : Option Codec.Got → Hold
  | none => .none
  | some (.copy d n) => .decoded (.copy d n)
  | some (.dict z i t) => .ready (.dict z i t)
  | some (.lit n e) => .decoded (.lit n e)
  | some (.bswitch .lit t st) => .ready (.bswitch .lit t st)
  | some (.bswitch _ _ _) => .none
  | some (.pm p) => .decoded (.pm p)

/-- Is the worker inside a prediction mode command? -/
def inPm : Codec.At → Bool
  | .pm _ => true
  | _ => false

/-- Why the worker returns. -/
inductive Pause where
  | needsInput
  | needsOutput
  | success
  deriving DecidableEq, Repr

/-- A step of the worker, `/repo/src/codec/mod.rs:652-1024` with `/repo/src/threading.rs:490-518`: pass on
a command if there is place for it (256 commands; two of them prediction modes); fill the entropy decoder
behind a command; get memory for a prediction mode; or read a nibble. -/
def St.work (s : St) : Codec.Res (St × Option Pause) :=
  match s.hold with
  | .ready g =>
    if s.result.length < 256 ∧ (isPm g → (s.result.filter isPm).length < 2) then
      .ok ({ s with result := s.result ++ [g], hold := .none }, none)
    else .ok (s, some .needsOutput)
  | .decoded g =>
    if s.fill.2 then
      .ok ({ s.fill.1 with hold := .ready g, map := s.fill.1.map && !isPm g }, none)
    else .ok (s.fill.1, some .needsInput)
  | .none =>
    if s.b.rcv.core.at_ = .stop then .ok (s, some .success)
    else if inPm s.b.rcv.core.at_ && !s.map then
      if s.maps = 0 then .ok (s, some .needsOutput)
      else .ok ({ s with maps := s.maps - 1, map := true }, none)
    else if s.fill.2 then
      let t := s.fill.1
      match Codec.coreAsk t.b.rcv.core with
      | none => .panic
      | some a =>
        let x := take t.b.rcv.cmdRx (.plain a.key (some a.speed))
        (Codec.coreTake t.b.rcv.core x.2).bind fun y =>
          .ok ({ t with b := { t.b with rcv := { t.b.rcv with cmdRx := x.1, core := y.1 } }
                        hold := holdFor y.2 }, none)
    else .ok (s.fill.1, some .needsInput)

/-! ## The main side -/

/-- `push`: hand the demultiplexed bytes of the command stream to the worker, if there are any and it has
place for them.  `/repo/src/threading.rs:235-242`, `/repo/src/codec/decoder.rs:144-148`. -/
def St.push (s : St) : Option St :=
  if s.data.length < 2 ∧ s.b.mux.unread false ≠ [] then
    some { s with b := { s.b with mux := (s.b.mux.takeBuf false).1 }
                  data := s.data ++ [(s.b.mux.takeBuf false).2], lent := s.lent + 1 }
  else none

/-- `decode_process_input`: also returns the input not taken and whether to go on; `none` is a panic.
`/repo/src/codec/decoder.rs:121-163`. -/
def St.input (skip : Bool) (s : St) (pend : List UInt8) : Option (St × List UInt8 × Bool) :=
  match s.b.input skip pend with
  | none => none
  | some (b, rest) =>
    let s1 := { s with b := b }
    if b.mux.unread false ≠ [] then
      match s1.push with
      | some s2 => some (s2, rest, true)
      | none => some (s1, rest, decide (s1.lent ≠ 0))
    else some (s1, rest, b.mux.sawEof || decide (s1.lent ≠ 0))

/-- A buffer came back: hand over the next one, or notice that input is wanted.
`/repo/src/codec/decoder.rs:303-326`. -/
def St.refill (s : St) (need : Bool) : St × Bool :=
  match s.push with
  | some t => (t, need)
  | none => (s, need || (decide (s.lent = 0) && (decide (s.b.mux.unread false ≠ []) || !s.b.mux.sawEof)))

/-- The buffers that came back: for each, hand over the next one or notice that input is wanted, and give
its memory to the demultiplexer.  `none`: the count of buffers underflows.
`/repo/src/codec/decoder.rs:301-334`. -/
def St.giveBack : List (List UInt8) → St → Bool → Option (St × Bool)
  | [], s, need => some (s, need)
  | m :: ms, s, need =>
    if s.lent = 0 then none
    else
      let p := ({ s with lent := s.lent - 1 } : St).refill need
      St.giveBack ms { p.1 with b := { p.1.b with mux := p.1.b.mux.recycle false m } } p.2

/-- The main side fetches commands and used buffers: `pull_command_buf` and what follows.  The status `Eof`
is there from the end marker of the command stream on.
`/repo/src/codec/decoder.rs:290-344`, `/repo/src/threading.rs:244-258`. -/
def St.collect (s : St) : Option (St × Bool) :=
  (St.giveBack s.back { s with b := { s.b with rcv := { s.b.rcv with queue := s.result } }, result := [], back := [] }
    false).map fun p => ({ p.1 with sawEnd := decide (p.1.b.rcv.core.at_ = .stop) }, p.2)

/-- What a call returns; `Failure` and panics are in `Codec.Res`. -/
inductive Ret where
  | needsInput
  | needsOutput
  | success
  deriving DecidableEq, Repr

/-- What comes after a step of the main side. -/
inductive After where
  | go
  | yield
  | ret (r : Ret)
  deriving DecidableEq, Repr

/-- `process_eof`: flush, then wait for the trailer and compare it.
`/repo/src/codec/decoder.rs:186-213`. -/
def St.finish (dw : Nat → Nat → Nat → List UInt8) (skip : Bool) (s : St) (room : Nat) :
    Codec.Res (St × List UInt8 × After) :=
  (s.b.main dw room).bind fun x =>
    if x.1.rcv.at_ ≠ .finished then .ok ({ s with b := x.1 }, x.2, .ret .needsOutput)
    else if x.1.sum.length ≠ 8 then .ok ({ s with b := x.1 }, x.2, .ret .needsInput)
    else if File.sumOk skip x.1.crc x.1.sum then .ok ({ s with b := x.1 }, x.2, .ret .success)
    else .fail

/-- A step of `decode_process_output`: a nibble of a literal (when there is none to be had, more input is
wanted), a call of the recoder (when it does not finish, more output space is wanted), fetching commands
(`Yield` when there are none), taking up a command (`Yield` after a literal; the memory of a prediction mode
goes back to the worker), or the end.  `/repo/src/codec/decoder.rs:225-419`. -/
def St.output (dw : Nat → Nat → Nat → List UInt8) (skip : Bool) (s : St) (room : Nat) :
    Codec.Res (St × List UInt8 × After) :=
  match s.b.rcv.at_ with
  | .content c =>
    (s.b.main dw room).bind fun x =>
      .ok ({ s with b := x.1 }, x.2, if x.1.rcv.at_ = .content c then .ret .needsInput else .go)
  | .filling c =>
    (s.b.main dw room).bind fun x =>
      .ok ({ s with b := x.1 }, x.2, if x.1.rcv.at_ = .filling c then .ret .needsOutput else .go)
  | .idle =>
    match s.b.rcv.queue with
    | g :: _ =>
      (s.b.main dw room).bind fun x =>
        match g with
        | .pm _ => if s.maps = 2 then .panic else .ok ({ s with b := x.1, maps := s.maps + 1 }, x.2, .go)
        | .lit _ _ => .ok ({ s with b := x.1 }, x.2, .yield)
        | _ => .ok ({ s with b := x.1 }, x.2, .go)
    | [] =>
      if s.sawEnd then s.finish dw skip room
      else
        match s.collect with
        | none => .panic
        | some (t, need) =>
          .ok (t, [],
            if need then .ret .needsInput
            else if t.b.rcv.queue = [] ∧ t.sawEnd = false then .yield else .go)
  | .finished => s.finish dw skip room

/-! ## A call -/

/-- The three parts of the loop. -/
inductive Phase where
  | input
  | work
  | output
  deriving DecidableEq, Repr

/-- A call in progress: the input not taken, the room left in the output buffer, and what was written. -/
structure Conf where
  s : St
  ph : Phase
  pend : List UInt8
  room : Nat
  out : List UInt8

/-- A step, and the value returned if it is the last one.  `/repo/src/divans_decompressor.rs:118-162`. -/
def Conf.tick (dw : Nat → Nat → Nat → List UInt8) (skip : Bool) (c : Conf) : Codec.Res (Conf × Option Ret) :=
  match c.ph with
  | .input =>
    match c.s.input skip c.pend with
    | none => .panic
    | some (s, rest, go) =>
      .ok ({ c with s := s, pend := rest, ph := .work }, if go then none else some .needsInput)
  | .work =>
    c.s.work.bind fun x =>
      match x.2 with
      | none => .ok ({ c with s := x.1 }, none)
      | some .needsInput =>
        .ok ({ c with s := x.1, ph := .output }, if x.1.lent = 0 then some .needsInput else none)
      | some _ => .ok ({ c with s := x.1, ph := .output }, none)
  | .output =>
    (c.s.output dw skip c.room).bind fun x =>
      let c' := { c with s := x.1, room := c.room - x.2.1.length, out := c.out ++ x.2.1 }
      match x.2.2 with
      | .go => .ok (c', none)
      | .yield => .ok ({ c' with ph := .input }, none)
      | .ret r => .ok (c', some r)

/-- Steps until the call returns; the number bounds them. -/
def loop (dw : Nat → Nat → Nat → List UInt8) (skip : Bool) : Nat → Conf → Option (Codec.Res (Conf × Ret))
  | 0, _ => none
  | k + 1, c =>
    match c.tick dw skip with
    | .fail => some .fail
    | .panic => some .panic
    | .ok (c', some r) => some (.ok (c', r))
    | .ok (c', none) => loop dw skip k c'

/-- `DivansDecompressor`, without a thread: collecting the header or decoding behind it. -/
inductive Stage where
  | header (got : List UInt8)
  | body (s : St)

/-- A decompressor; `skip`: it does not check checksums. -/
structure Dec where
  skip : Bool
  stage : Stage

/-- A new decompressor. -/
def Dec.new (skip : Bool) : Dec := ⟨skip, .header []⟩

/-- What the caller sees of a call that returned: the number of input bytes taken, the bytes written and
the value returned. -/
structure Reply where
  dec : Dec
  used : Nat
  out : List UInt8
  ret : Ret

/-- The loop of `DivansProcess::decode`, `/repo/src/divans_decompressor.rs:110-163`. -/
def process (dw : Nat → Nat → Nat → List UInt8) (fuel : Nat) (skip : Bool) (s : St) (input : List UInt8)
    (before room : Nat) : Option (Codec.Res Reply) :=
  (loop dw skip fuel ⟨s, .input, input, room, []⟩).map fun r => r.bind fun x =>
    .ok ⟨⟨skip, .body x.1.s⟩, before + (input.length - x.1.pend.length), x.1.out, x.2⟩

/-- `decode`, with an output buffer of `room` bytes.  `none`: it does not return within `fuel` steps.
`/repo/src/divans_decompressor.rs:53-81, 354-397`. -/
def Dec.decode (dw : Nat → Nat → Nat → List UInt8) (fuel : Nat) (d : Dec) (input : List UInt8) (room : Nat) :
    Option (Codec.Res Reply) :=
  match d.stage with
  | .header got =>
    match Frame.headerDecode got input with
    | .more got' => some (.ok ⟨⟨d.skip, .header got'⟩, input.length, [], .needsInput⟩)
    | .fail _ => some .fail
    | .ready h w used =>
      if used < input.length then process dw fuel d.skip (St.init d.skip h w) (input.drop used) used room
      else some (.ok ⟨⟨d.skip, .body (St.init d.skip h w)⟩, used, [], .needsInput⟩)
  | .body s => process dw fuel d.skip s input 0 room

end Divans.Call
