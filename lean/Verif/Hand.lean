/-!
# Passing data and commands between the main side and the worker

`/repo/src/threading.rs` (`SerialWorker`) holds the queues between the side that reads the file and
writes the output (main) and the side that decodes the command stream (worker).  With one thread the two
sides call it in turn; with two threads (`/repo/src/multithreading.rs`) it is behind a mutex and every
call is one critical section.  So in both cases a history is a sequence of calls, in any order.
-/

namespace Divans.Hand

/-- `AllocatedMemoryRange`: the size of the block and the bytes in its range,
/repo/src/slice_util.rs. -/
structure Range where
  /-- `.0.len()` -/
  cap : Nat
  /-- `.slice()` -/
  bytes : List UInt8
deriving DecidableEq, Repr

/-- `AllocatedMemoryRange::default()`. -/
def Range.none : Range := ⟨0, []⟩

/-- `PredictionModeContextMap`: its bytes, and whether it has the part with the speeds
(`has_context_speeds()`). -/
structure Pm where
  /-- the maps -/
  map : List UInt8
  /-- `has_context_speeds()` -/
  speeds : Bool
deriving DecidableEq, Repr

/-- `empty_prediction_mode_context_map`, /repo/src/threading.rs:25-30. -/
def Pm.empty : Pm := ⟨[], false⟩

/-- A command of the worker; all but the prediction mode are passed by value and stay abstract here. -/
inductive Cmd (γ : Type) where
  /-- `Command::PredictionMode` -/
  | pm (p : Pm)
  /-- any other command -/
  | other (c : γ)
deriving DecidableEq, Repr

/-- `StaticCommand`: the same without the maps, see `downcast_command`,
/repo/src/threading.rs:440-458. -/
inductive Static (γ : Type) where
  /-- an empty prediction mode, standing for one of the maps passed separately -/
  | pm
  /-- any other command -/
  | other (c : γ)
deriving DecidableEq, Repr

/-- `downcast_command`, /repo/src/threading.rs:440-458. -/
def Cmd.static {γ : Type} : Cmd γ → Static γ
  | .pm _ => .pm
  | .other c => .other c

/-- `AllocatedMemoryPrefix<StaticCommand>`: a block of command slots, the first of which are in use. -/
structure CBuf (γ : Type) where
  /-- `.0.len()` -/
  cap : Nat
  /-- the slots in use -/
  cmds : List (Static γ)
deriving DecidableEq, Repr

/-- `NUM_SERIAL_COMMANDS_BUFFERED`, /repo/src/threading.rs:92: the size of every block of command slots:
/repo/src/threading.rs:175, /repo/src/multithreading.rs:378, /repo/src/codec/decoder.rs:99. -/
def slots : Nat := 256

/-- What the two places of `data` hold, /repo/src/threading.rs:11-16, 474-475 (`Yield` and `Err` are
never stored). -/
inductive Slot where
  /-- `ThreadData::Data` -/
  | data (b : Range)
  /-- `ThreadData::Eof` -/
  | eof
deriving DecidableEq, Repr

/-- `ThreadData` as a result. -/
inductive Pulled where
  /-- `ThreadData::Data` -/
  | data (b : Range)
  /-- `ThreadData::Yield` -/
  | yield
  /-- `ThreadData::Eof` -/
  | eof
  /-- `ThreadData::Err` -/
  | err (e : Nat)
deriving DecidableEq, Repr

/-- `CommandResult`, /repo/src/threading.rs:32-36; error messages are numbers here. -/
inductive Status where
  /-- `Ok` -/
  | ok
  /-- `Eof` -/
  | eof
  /-- `Err` -/
  | err (e : Nat)
deriving DecidableEq, Repr

/-- `DivansOutputResult`. -/
inductive Out where
  /-- `Success` -/
  | success
  /-- `NeedsMoreOutput` -/
  | needsOutput
  /-- `Failure` -/
  | failure (e : Nat)
deriving DecidableEq, Repr

/-- `SerialWorker`, /repo/src/threading.rs:93-105. -/
structure Queue (γ : Type) where
  /-- `data_len` -/
  dataLen : Nat
  /-- `data[0]` -/
  d0 : Slot
  /-- `data[1]` -/
  d1 : Slot
  /-- `cm_len` -/
  cmLen : Nat
  /-- `cm[0]` -/
  c0 : Pm
  /-- `cm[1]` -/
  c1 : Pm
  /-- `result` -/
  result : CBuf γ
  /-- `result_data[0]` -/
  r0 : Range
  /-- `result_data[1]` -/
  r1 : Range
  /-- `result_cm[0]` -/
  p0 : Pm
  /-- `result_cm[1]` -/
  p1 : Pm
  /-- `waiters` -/
  waiters : Nat
  /-- `eof_present_in_result` -/
  status : Status
  /-- `err` -/
  err : Option Nat
deriving DecidableEq, Repr

variable {γ : Type}

/-- `SerialWorker::new`, /repo/src/threading.rs:166-184. -/
def Queue.new (γ : Type) : Queue γ :=
  ⟨0, .data .none, .data .none, 0, .empty, .empty, ⟨slots, []⟩, .none, .none, .empty, .empty, 0, .ok,
    none⟩

/-- `broadcast_err_internal`, /repo/src/threading.rs:107-110; the worker's `broadcast_err`
(:553-555), and with two threads both sides' (/repo/src/multithreading.rs:126-136). -/
def Queue.fail (w : Queue γ) (e : Nat) : Queue γ := { w with status := .err e, err := some e }

/-- The main side's `broadcast_err` with one thread, /repo/src/threading.rs:258-260. -/
def Queue.failMain (w : Queue γ) (e : Nat) : Queue γ := { w with err := some e }

/-- `set_error`, /repo/src/threading.rs:138-140. -/
def Queue.setError (w : Queue γ) (e : Nat) : Queue γ := { w with status := .err e }

/-- `set_eof_hint`, /repo/src/threading.rs:141-145. -/
def Queue.setEof (w : Queue γ) : Queue γ :=
  match w.status with
  | .ok => { w with status := .eof }
  | _ => w

/-- `result_ready`, /repo/src/threading.rs:111-116. -/
def Queue.resultReady (w : Queue γ) : Bool :=
  match w.status with
  | .ok => w.result.cmds.length != 0 || w.r0.cap != 0
  | _ => true

/-- `result_multi_space_ready`, /repo/src/threading.rs:123-125. -/
def Queue.space (w : Queue γ) (n : Nat) : Bool := n ≤ w.result.cap - w.result.cmds.length

/-- `push_context_map`, /repo/src/threading.rs:221-228; the result is `is_ok()`. -/
def Queue.pushCm (w : Queue γ) (p : Pm) : Queue γ × Bool :=
  if w.cmLen = 2 then (w, false)
  else if w.cmLen = 0 then ({ w with c0 := p, cmLen := 1 }, true)
  else ({ w with c1 := p, cmLen := w.cmLen + 1 }, true)

/-- `push`, /repo/src/threading.rs:230-237: also what is left in the caller's variable. -/
def Queue.push (w : Queue γ) (b : Range) : Queue γ × Range × Bool :=
  if w.dataLen = 2 ∨ b.bytes = [] then (w, b, false)
  else if w.dataLen = 0 then ({ w with d0 := .data b, dataLen := 1 }, .none, true)
  else ({ w with d1 := .data b, dataLen := w.dataLen + 1 }, .none, true)

/-- `pull`, /repo/src/threading.rs:239-255: the blocks are exchanged with the caller's; `none` is the
failed assertion at :245-248. -/
def Queue.pull (w : Queue γ) (out : CBuf γ) (cons : Range × Range) (pm : Pm × Pm) :
    Option (Queue γ × CBuf γ × (Range × Range) × (Pm × Pm) × Status) :=
  if w.result.cmds = [] ∧ (w.p0.speeds = true ∨ w.p1.speeds = true) then none
  else some ({ w with result := out, r0 := cons.1, r1 := cons.2, p0 := pm.1, p1 := pm.2 },
    w.result, (w.r0, w.r1), (w.p0, w.p1), w.status)

/-- `pull_data`, /repo/src/threading.rs:464-477. -/
def Queue.pullData (w : Queue γ) : Queue γ × Pulled :=
  match w.err with
  | some e => (w, .err e)
  | none =>
    if w.dataLen = 0 then (w, .yield)
    else ({ w with d0 := w.d1, d1 := .eof, dataLen := w.dataLen - 1 },
      match w.d0 with
      | .data b => .data b
      | .eof => .eof)

/-- `pull_context_map`, /repo/src/threading.rs:479-494: the most recent one. -/
def Queue.pullCm (w : Queue γ) : Queue γ × Option Pm :=
  if w.err ≠ none ∨ w.cmLen = 0 then (w, none)
  else if w.cmLen = 1 then ({ w with c0 := .empty, cmLen := 0 }, some w.c0)
  else ({ w with c1 := .empty, cmLen := w.cmLen - 1 }, some w.c1)

/-- `push_cmd`, /repo/src/threading.rs:496-526: also what is left in the caller's variable. -/
def Queue.pushCmd (w : Queue γ) (c : Cmd γ) : Queue γ × Cmd γ × Out :=
  match w.err with
  | some e => (w, c, .failure e)
  | none =>
    if w.result.cmds.length < w.result.cap then
      match c with
      | .other x =>
        ({ w with result := ⟨w.result.cap, w.result.cmds ++ [.other x]⟩ }, .other x, .success)
      | .pm p =>
        if w.p0.speeds = true then
          if w.p1.speeds = true then (w, .pm p, .needsOutput)
          else ({ w with p1 := p, result := ⟨w.result.cap, w.result.cmds ++ [.pm]⟩ }, .pm w.p1, .success)
        else ({ w with p0 := p, result := ⟨w.result.cap, w.result.cmds ++ [.pm]⟩ }, .pm w.p0, .success)
    else (w, c, .needsOutput)

/-- `push_consumed_data`, /repo/src/threading.rs:528-542: also what is left in the caller's variable. -/
def Queue.pushConsumed (w : Queue γ) (b : Range) : Queue γ × Range × Out :=
  match w.err with
  | some e => (w, b, .failure e)
  | none =>
    if w.r0.cap = 0 then ({ w with r0 := b }, w.r0, .success)
    else if w.r1.cap = 0 then ({ w with r1 := b }, w.r1, .success)
    else (w, b, .needsOutput)

/-- `push_eof`, /repo/src/threading.rs:544-552. -/
def Queue.pushEof (w : Queue γ) : Queue γ × Out :=
  match w.err with
  | some e => (w.setEof, .failure e)
  | none => (w.setEof, .success)

/-- Putting a map in a free place, /repo/src/threading.rs:159-166 (in `insert_results`); `none` is the
failed assertion. -/
def Queue.putPm (w : Queue γ) (p : Pm) : Option (Queue γ) :=
  if w.p1.speeds = true then none
  else if w.p0.speeds = true then some { w with p1 := p }
  else some { w with p0 := p }

/-- `insert_results`, /repo/src/threading.rs:153-169: a batch of commands, with the map of its last
command if that is a prediction mode; the result is the number of commands that were there.  `none` is a
panic (no room, or two maps waiting already). -/
def Queue.insert (w : Queue γ) (buf : CBuf γ) (pm : Option Pm) : Option (Queue γ × CBuf γ × Nat) :=
  let old := w.result.cmds.length
  if old = 0 then
    let w1 := { w with result := buf }
    let buf1 : CBuf γ := ⟨w.result.cap, []⟩
    match pm with
    | none => some (w1, buf1, old)
    | some p => (w1.putPm p).map fun w2 => (w2, buf1, old)
  else if old + buf.cmds.length ≤ w.result.cap then
    let w1 := { w with result := ⟨w.result.cap, w.result.cmds ++ buf.cmds⟩ }
    let buf1 : CBuf γ := ⟨buf.cap, []⟩
    match pm with
    | none => some (w1, buf1, old)
    | some p => (w1.putPm p).map fun w2 => (w2, buf1, old)
  else none

/-! ### Histories of calls -/

/-- One call. -/
inductive Op (γ : Type) where
  /-- main: `push` -/
  | push (b : Range)
  /-- main: `push_context_map` -/
  | pushCm (p : Pm)
  /-- main: `pull`, with an empty block of slots and empty places, as in
  /repo/src/codec/decoder.rs:289-300 -/
  | pull
  /-- worker: `pull_data` -/
  | pullData
  /-- worker: `pull_context_map` -/
  | pullCm
  /-- worker: `push_cmd` -/
  | pushCmd (c : Cmd γ)
  /-- worker: `push_consumed_data` -/
  | pushConsumed (b : Range)
  /-- worker: `push_eof` -/
  | pushEof
  /-- worker: `insert_results` with these commands and perhaps a prediction mode after them, as in
  `BufferedMultiWorker`, /repo/src/multithreading.rs:382-435, 452-474 -/
  | insert (cs : List γ) (pm : Option Pm)
  /-- worker, or either side with two threads: `broadcast_err` -/
  | fail (e : Nat)
  /-- main with one thread: `broadcast_err` -/
  | failMain (e : Nat)
deriving DecidableEq, Repr

/-- What a caller sees of a call. -/
inductive Obs (γ : Type) where
  /-- `push` of this buffer, and whether it was accepted -/
  | push (b : Range) (ok : Bool)
  /-- `push_context_map` of this map, and whether it was accepted -/
  | pushCm (p : Pm) (ok : Bool)
  /-- what `pull` gave -/
  | pull (cs : List (Static γ)) (bufs : Range × Range) (pms : Pm × Pm) (s : Status)
  /-- what `pull_data` gave -/
  | pullData (r : Pulled)
  /-- what `pull_context_map` gave -/
  | pullCm (r : Option Pm)
  /-- `push_cmd` of this command, and its result -/
  | pushCmd (c : Cmd γ) (r : Out)
  /-- `push_consumed_data` of this buffer, and its result -/
  | pushConsumed (b : Range) (r : Out)
  /-- the result of `push_eof` -/
  | pushEof (r : Out)
  /-- a batch of commands -/
  | insert (cs : List γ) (pm : Option Pm)
  /-- an error was broadcast -/
  | fail (e : Nat)
deriving DecidableEq, Repr

/-- The block `BufferedMultiWorker` hands over: commands, and a prediction mode after them if there is
one, /repo/src/multithreading.rs:460-465. -/
def batch (cs : List γ) (pm : Option Pm) : CBuf γ :=
  ⟨slots, cs.map .other ++ (match pm with
    | some _ => [.pm]
    | none => [])⟩

/-- One call on the queue; `none` is a panic (a batch larger than its block is one,
/repo/src/multithreading.rs:462). -/
def step (w : Queue γ) : Op γ → Option (Queue γ × Obs γ)
  | .push b => let r := w.push b; some (r.1, .push b r.2.2)
  | .pushCm p => let r := w.pushCm p; some (r.1, .pushCm p r.2)
  | .pull => (w.pull ⟨slots, []⟩ (.none, .none) (.empty, .empty)).map fun r =>
      (r.1, .pull r.2.1.cmds r.2.2.1 r.2.2.2.1 r.2.2.2.2)
  | .pullData => let r := w.pullData; some (r.1, .pullData r.2)
  | .pullCm => let r := w.pullCm; some (r.1, .pullCm r.2)
  | .pushCmd c => let r := w.pushCmd c; some (r.1, .pushCmd c r.2.2)
  | .pushConsumed b => let r := w.pushConsumed b; some (r.1, .pushConsumed b r.2.2)
  | .pushEof => let r := w.pushEof; some (r.1, .pushEof r.2)
  | .insert cs pm =>
    if (batch cs pm).cmds.length ≤ slots then
      (w.insert (batch cs pm) pm).map fun r => (r.1, .insert cs pm)
    else none
  | .fail e => some (w.fail e, .fail e)
  | .failMain e => some (w.failMain e, .fail e)

/-- A history of calls and what the callers saw; `none` is a panic. -/
def run : List (Op γ) → Queue γ → Option (Queue γ × List (Obs γ))
  | [], w => some (w, [])
  | o :: os, w =>
    match step w o with
    | none => none
    | some (w1, x) => (run os w1).map fun r => (r.1, x :: r.2)

end Divans.Hand
