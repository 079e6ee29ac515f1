import Verif.ParIo

/-!
# Freeing a decompressor with a worker thread

`free` and `free_ref` of `ParallelDivansProcess` broadcast an error and then lock the codec.  The worker's thread holds
that lock from its beginning to its end, so the caller waits until the worker has ended; nothing else happens
meanwhile, and the worker is alone.  (A worker whose thread has not begun when the lock is taken is not in this file:
then the caller does not wait.)

The worker does not look at the error in all places: not when it waits for bytes or for the memory of a prediction mode,
and what `read_buffer` finds out about it is dropped.
-/

namespace Divans.Par
open Divans.Call (Hold isPm inPm Ret)

/-- What becomes of the worker's thread. -/
inductive Fate where
  /-- It makes a step. -/
  | on (p : St)
  /-- It ends, and lets go of the lock. -/
  | ended
  /-- It waits for ever, or calls `encode_or_decode` again and again for ever. -/
  | stuck
  /-- It panics: the lock is poisoned. -/
  | panicked

/-- A result of a step of the worker without its thread: a failure is broadcast and ends the thread.
`/repo/src/parallel_decompressor.rs:110-127`. -/
def Fate.of : Codec.Res (Option St) → Fate
  | .ok (some q) => .on q
  | .ok none => .stuck
  | .fail => .ended
  | .panic => .panicked

/-- A step of the worker's thread after the error was broadcast.

* In `force_push` with place for the commands: as without the error.  Without place: it returns the failure instead of
  waiting, and the thread ends, unless this is the call in `read_buffer` (the worker has given its buffer away,
  `mem = []`): there it is dropped, no byte has come, and the worker tries again for ever.
* It wants bytes and its buffer is empty: giving the buffer back fails, and that is dropped.  If no buffer is in
  the queue, `pull_data` waits; otherwise it gives the error, which is dropped: the worker tries again for ever.
* It wants the memory of a prediction mode: if there is none, `pull_context_map` waits; otherwise it gives an error, taken
  for "no place", and the worker tries again for ever.

`/repo/src/multithreading.rs:126-136, 235-282, 349-405`, `/repo/src/threading.rs:280-326, 462-490, 528-543`,
`/repo/src/codec/mod.rs:733-746, 811-827, 959-968`. -/
def St.told (p : St) : Fate :=
  match p.force with
  | some e =>
    if 256 - p.s.result.length < p.batch.length then
      if e = false ∧ p.s.mem = [] then .stuck else .ended
    else .of (p.flush e)
  | none =>
    if p.eof then .ended
    else
      match p.s.hold with
      | .ready g => .of (p.pass g)
      | _ =>
        if p.s.hold = .none ∧ p.s.b.rcv.core.at_ = .stop then .on (p.enter true)
        else if wants p.s then
          if p.s.b.rcv.cmdRx.buf = [] then .stuck else .of (.ok p.feed)
        else if p.s.hold = .none ∧ inPm p.s.b.rcv.core.at_ ∧ p.s.map = false then .stuck
        else
          .of (p.s.work.bind fun x =>
            match x.2 with
            | none => .ok (some { p with s := x.1 })
            | some _ => .ok none)

/-- What the caller of `free` sees. -/
inductive Freed where
  /-- It returns. -/
  | returns
  /-- It never returns. -/
  | hangs
  /-- It panics: the lock is poisoned, `/repo/src/parallel_decompressor.rs:144, 156`. -/
  | panics
  deriving DecidableEq, Repr

/-- The error has been broadcast, and the caller waits for the lock. -/
inductive St.Frees : St → Freed → Prop where
  | ended {p : St} : p.told = .ended → p.Frees .returns
  | stuck {p : St} : p.told = .stuck → p.Frees .hangs
  | panicked {p : St} : p.told = .panicked → p.Frees .panics
  | on {p q : St} {o : Freed} : p.told = .on q → q.Frees o → p.Frees o

/-- Steps of the worker's thread alone, between two calls. -/
inductive Works : St → St → Prop where
  | refl (p : St) : Works p p
  | tail {p q r : St} : Works p q → q.work = .ok (some r) → Works p r

/-- The end of `free`, with at most so many steps of the worker: `Frees` to compute with. -/
def St.freed : Nat → St → Option Freed
  | 0, _ => none
  | n + 1, p =>
    match p.told with
    | .ended => some .returns
    | .stuck => some .hangs
    | .panicked => some .panics
    | .on q => q.freed n

/-- The worker goes on for so many steps, or until it waits: `Works` to compute with. -/
def St.works : Nat → St → St
  | 0, p => p
  | n + 1, p =>
    match p.work with
    | .ok (some q) => q.works n
    | _ => p

/-- `free` and `free_ref` of the decompressor, at any moment of the worker's thread: without a thread, that is before the
header is complete, they return.  `/repo/src/divans_decompressor.rs:295-324`, `/repo/src/parallel_decompressor.rs:142-171`. -/
def Dec.Frees (d : Dec) (o : Freed) : Prop :=
  match d.stage with
  | .header _ => o = .returns
  | .body p => ∃ q, Works p q ∧ q.Frees o

/-- `decompress` of the program up to the call of `free`: what was written, how the loop ended, and the
decompressor that is freed then, however it ended (`/repo/src/bin/divans.rs:996-1003`). -/
def unpacked (sched : Sched) (dw : Nat → Nat → Nat → List UInt8) (skip : Bool) (n rounds size : Nat) (extra : List UInt8) (src : List Io.Ev)
    (sink : List Cli.WEv) : Option (List UInt8 × Cli.Outcome × Dec) :=
  (unpackLoop (threaded sched dw) n (max (Io.bufSize size) extra.length) (Io.bufSize size) rounds
    ⟨(Dec.new skip, 0), extra, extra.length, [], src, sink, []⟩).map fun x => (x.1.written, x.2, x.1.dec.1)

end Divans.Par
