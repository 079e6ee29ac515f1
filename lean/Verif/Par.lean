import Verif.Call

/-!
# The decompressor with a thread of its own for the worker

`ParallelDivansProcess` (feature `multithread`): the worker of `Verif.Call` runs in a thread, and the two
sides share the queues of `SerialWorker` under a mutex (`MultiWorker`).  The worker keeps the commands it has
decoded in a buffer of its own and passes on several at a time (`BufferedMultiWorker`).

Each operation done under the mutex is a step, and so is what either thread does between two of them; the
steps of the two threads interleave in any way.  A thread that waits for a condition makes no step until it is
true: that a sleeping thread is woken is the subject of `Verif.Threads`.  Errors broadcast by a thread are not in
this file; `free` is in `Verif.ParFree`.
-/

namespace Divans.Par
open Divans.Call (Hold isPm inPm Ret)

/-- The decompressor behind the header.

`s` is as without threads: the main side, the decoders of the worker and the queues they share (`s.result`,
`s.back`, `s.data`, `s.maps`).  `batch` is the worker's own buffer of commands and `least` its
`min_buffer_push_len`.  `force`: the worker is in `force_push`, with the end marker or without, and what is
left to do there is to pass on the commands.  `eof`: `eof_present_in_result`, set by the worker; nothing is
left for its thread to do.  `/repo/src/multithreading.rs:323-348`, `/repo/src/threading.rs:91-105`. -/
structure St where
  s : Call.St
  batch : List Codec.Got
  least : Nat
  force : Option Bool
  eof : Bool

/-- Behind a header.  `/repo/src/parallel_decompressor.rs:50-140`, `/repo/src/multithreading.rs:340-348`. -/
def St.init (skip : Bool) (h : List UInt8) (w : Nat) : St := ⟨.init skip h w, [], 2, none, false⟩

/-! ## The worker's thread -/

/-- The beginning of `force_push`.  `/repo/src/multithreading.rs:349-352`. -/
def St.enter (p : St) (e : Bool) : St :=
  { p with force := some e, least := if p.least * 2 < 256 then p.least * 4 else p.least }

/-- The end of `force_push`: wait until there is place for all commands, then pass them on, with the memory of
a prediction mode among them (the assertion of `insert_results`).
`/repo/src/multithreading.rs:380-435`, `/repo/src/threading.rs:148-168`. -/
def St.flush (p : St) (e : Bool) : Codec.Res (Option St) :=
  if 256 - p.s.result.length < p.batch.length then .ok none
  else if (p.batch.any isPm) ∧ 2 ≤ (p.s.result.filter isPm).length then .panic
  else
    .ok (some
      { s := { p.s with result := p.s.result ++ p.batch }
        batch := []
        least := if p.s.result.length ≤ 16 then max (p.least / 2) 4 else p.least
        force := none
        eof := p.eof || e })

/-- `push_cmd`: put the command into the own buffer; pass on what is there with a prediction mode, when the
buffer is full or has reached the length aimed at.  `/repo/src/multithreading.rs:455-479`. -/
def St.pass (p : St) (g : Codec.Got) : Codec.Res (Option St) :=
  if 256 ≤ p.batch.length then .panic
  else
    let q : St := { p with s := { p.s with hold := .none }, batch := p.batch ++ [g] }
    .ok (some (if isPm g ∨ q.batch.length = 256 ∨ q.batch.length = p.least then q.enter false else q))

/-- `read_buffer` and what is done with it, when the entropy decoder wants bytes: fill it from the buffer; if the
buffer is used up, first give it back (waiting for place for it) and enter `force_push`; then wait for the next
buffer.  `/repo/src/threading.rs:296-326`, `/repo/src/multithreading.rs:358-379`,
`/repo/src/codec/interface.rs:897-915`. -/
def St.feed (p : St) : Option St :=
  if p.s.b.rcv.cmdRx.buf ≠ [] then
    let x := p.s.b.rcv.cmdRx.dec.pushData p.s.b.rcv.cmdRx.buf
    some { p with s := p.s.setRx ⟨p.s.b.rcv.cmdRx.ses, x.1, p.s.b.rcv.cmdRx.buf.drop x.2⟩ }
  else if p.s.mem ≠ [] then
    if 2 ≤ p.s.back.length then none
    else some (({ p with s := { p.s with mem := [], back := p.s.back ++ [p.s.mem] } } : St).enter false)
  else
    match p.s.data with
    | [] => none
    | d :: ds => some { p with s := { p.s.setRx { p.s.b.rcv.cmdRx with buf := d.unread } with mem := d.mem, data := ds } }

/-- Does the worker look at its entropy decoder next? -/
def wants (s : Call.St) : Bool :=
  decide (s.b.rcv.cmdRx.dec.numPushAvail ≠ 0) &&
    match s.hold with
    | .none => !(inPm s.b.rcv.core.at_ && !s.map)
    | .decoded _ => true
    | .ready _ => false

/-- A step of the worker's thread; `none`: it waits, or has ended.  The worker is that of `Verif.Call`, except for
what it does to get bytes, to pass on a command and to report the end.
`/repo/src/parallel_decompressor.rs:100-128`, `/repo/src/codec/mod.rs:652-1024`. -/
def St.work (p : St) : Codec.Res (Option St) :=
  match p.force with
  | some e => p.flush e
  | none =>
    if p.eof then .ok none
    else
      match p.s.hold with
      | .ready g => p.pass g
      | _ =>
        if p.s.hold = .none ∧ p.s.b.rcv.core.at_ = .stop then .ok (some (p.enter true))
        else if wants p.s then .ok p.feed
        else
          p.s.work.bind fun x =>
            match x.2 with
            | none => .ok (some { p with s := x.1 })
            | some _ => .ok none

/-! ## The main thread -/

/-- Where the main thread is in a call: before the input, in `decode_process_output`, or there with buffers it has
fetched and not yet dealt with (`need`: it has noticed that input is wanted). -/
inductive Phase where
  | input
  | output
  | giving (ms : List (List UInt8)) (need : Bool)
  deriving DecidableEq, Repr

/-- A call in progress. -/
structure Conf where
  p : St
  ph : Phase
  pend : List UInt8
  room : Nat
  out : List UInt8

/-- `commands_or_data_to_receive`, `/repo/src/codec/decoder.rs:116-119`. -/
def receives (s : Call.St) : Bool :=
  decide (0 < s.lent) || (s.b.mux.sawEof && decide (s.b.mux.unread false = []))

/-- The main side is about to fetch commands: `/repo/src/codec/decoder.rs:290`. -/
def fetches (s : Call.St) : Bool :=
  decide (s.b.rcv.at_ = .idle) && s.b.rcv.queue.isEmpty && !s.sawEnd

/-- The main side is about to return the memory of a prediction mode. -/
def returnsMap (s : Call.St) : Bool :=
  decide (s.b.rcv.at_ = .idle) &&
    match s.b.rcv.queue with
    | g :: _ => isPm g
    | [] => false

/-- A step of the main thread, and the value returned if it is the last one of the call; `none`: it waits.  After
the input, `decode_process_output`: when it is out of commands it waits for commands, a used buffer or the end and
fetches what there is (`pull`), and deals with one used buffer after the other.
`/repo/src/parallel_decompressor.rs:163-208`, `/repo/src/codec/decoder.rs:121-419`,
`/repo/src/multithreading.rs:160-176, 206-232`. -/
def Conf.tick (dw : Nat → Nat → Nat → List UInt8) (skip : Bool) (c : Conf) : Codec.Res (Option (Conf × Option Ret)) :=
  match c.ph with
  | .input =>
    match c.p.s.input skip c.pend with
    | none => .panic
    | some (s, rest, go) =>
      .ok (some ({ c with p := { c.p with s := s }, pend := rest, ph := if receives s then .output else .input },
        if go then none else some .needsInput))
  | .giving [] need => .ok (some ({ c with ph := .output }, if need then some .needsInput else none))
  | .giving (m :: ms) need =>
    match Call.St.giveBack [m] c.p.s need with
    | none => .panic
    | some (s, need') => .ok (some ({ c with p := { c.p with s := s }, ph := .giving ms need' }, none))
  | .output =>
    if fetches c.p.s then
      if c.p.s.result = [] ∧ c.p.s.back = [] ∧ c.p.eof = false then .ok none
      else
        .ok (some
          ({ c with
              p := { c.p with s := { c.p.s with b := { c.p.s.b with rcv := { c.p.s.b.rcv with queue := c.p.s.result } }
                                                result := []
                                                back := []
                                                sawEnd := c.p.eof } }
              ph := .giving c.p.s.back false }, none))
    else if returnsMap c.p.s ∧ c.p.s.maps = 2 then .ok none
    else
      (c.p.s.output dw skip c.room).bind fun x =>
        let c' := { c with p := { c.p with s := x.1 }, room := c.room - x.2.1.length, out := c.out ++ x.2.1 }
        match x.2.2 with
        | .ret r => .ok (some (c', some r))
        | _ => .ok (some (c', none))

/-- A step of either thread that does not end the call. -/
inductive Step (dw : Nat → Nat → Nat → List UInt8) (skip : Bool) : Conf → Conf → Prop where
  | main {c c' : Conf} : c.tick dw skip = .ok (some (c', none)) → Step dw skip c c'
  | worker {c : Conf} {p : St} : c.p.work = .ok (some p) → Step dw skip c { c with p := p }

/-- Some interleaving of the threads leads to the end of the call, with this value. -/
inductive Ends (dw : Nat → Nat → Nat → List UInt8) (skip : Bool) : Conf → Conf → Ret → Prop where
  | last {c c' : Conf} {r : Ret} : c.tick dw skip = .ok (some (c', some r)) → Ends dw skip c c' r
  | step {c c1 c' : Conf} {r : Ret} : Step dw skip c c1 → Ends dw skip c1 c' r → Ends dw skip c c' r

/-! ## Calls -/

/-- Collecting the header, or decoding behind it. -/
inductive Stage where
  | header (got : List UInt8)
  | body (p : St)

/-- A decompressor with a thread. -/
structure Dec where
  skip : Bool
  stage : Stage

/-- A new decompressor. -/
def Dec.new (skip : Bool) : Dec := ⟨skip, .header []⟩

/-- What the caller sees of a call that returned. -/
structure Reply where
  dec : Dec
  used : Nat
  out : List UInt8
  ret : Ret

/-- How a call begins: it returns at once, or the loop behind the header is entered after some bytes.
`/repo/src/divans_decompressor.rs:53-81, 354-397`. -/
def Dec.begin (d : Dec) (input : List UInt8) (room : Nat) : Codec.Res (Reply ⊕ (Conf × Nat)) :=
  match d.stage with
  | .header got =>
    match Frame.headerDecode got input with
    | .more got' => .ok (.inl ⟨⟨d.skip, .header got'⟩, input.length, [], .needsInput⟩)
    | .fail _ => .fail
    | .ready h w used =>
      if used < input.length then .ok (.inr (⟨St.init d.skip h w, .input, input.drop used, room, []⟩, used))
      else .ok (.inl ⟨⟨d.skip, .body (St.init d.skip h w)⟩, used, [], .needsInput⟩)
  | .body p => .ok (.inr (⟨p, .input, input, room, []⟩, 0))

/-- What the caller sees when the loop entered with the input `input` after `before` bytes ends. -/
def Conf.reply (skip : Bool) (input : List UInt8) (before : Nat) (c : Conf) (r : Ret) : Reply :=
  ⟨⟨skip, .body c.p⟩, before + (input.length - c.pend.length), c.out, r⟩

/-- A call may return `r`: some interleaving of the threads during the call does.  What the worker's thread does
between calls is counted to the next call. -/
def Dec.Returns (dw : Nat → Nat → Nat → List UInt8) (d : Dec) (input : List UInt8) (room : Nat) (r : Reply) : Prop :=
  match d.begin input room with
  | .ok (.inl r') => r = r'
  | .ok (.inr (c, before)) => ∃ c' v, Ends dw d.skip c c' v ∧ r = c'.reply d.skip c.pend before v
  | _ => False

end Divans.Par
