import Verif.Hand

/-!
# The two threads of the multithreaded decompressor

`/repo/src/multithreading.rs` puts the queues of `Verif.Hand` behind a mutex and a condition variable.
Each call is a loop: lock; if the condition it needs holds, do the work, notify and return; otherwise
count itself in `waiters`, wait on the condition variable, take itself off the count, and try again.  A
thread is modelled by what it is doing; between two steps no thread holds the lock.  Wake-ups without a
notification are possible (`std::sync::Condvar` allows them).
-/

namespace Divans.Threads

open Divans.Hand

variable {γ : Type}

/-- The calls of the main thread. -/
inductive MOp where
  /-- `push_context_map` -/
  | pushCm (p : Pm)
  /-- `push` -/
  | push (b : Range)
  /-- `pull` -/
  | pull
  /-- `broadcast_err` -/
  | fail (e : Nat)
deriving DecidableEq, Repr

/-- The calls of the worker thread. -/
inductive WOp (γ : Type) where
  /-- `pull_data` -/
  | pullData
  /-- `pull_context_map` -/
  | pullCm
  /-- `force_push` of the commands buffered, perhaps with a prediction mode after them, perhaps with the
  end of the file, perhaps with a buffer to give back (`data.cap ≠ 0`); all of `push_cmd`,
  `push_consumed_data` and `push_eof` of `BufferedMultiWorker` end here,
  /repo/src/multithreading.rs:452-486 -/
  | force (cs : List γ) (pm : Option Pm) (eof : Bool) (data : Range)
  /-- `broadcast_err` -/
  | fail (e : Nat)
deriving DecidableEq, Repr

/-- What a thread is doing. -/
inductive Th (α : Type) where
  /-- outside of the queue's functions -/
  | idle
  /-- about to take the lock for this call -/
  | wants (o : α)
  /-- waiting on the condition variable in this call -/
  | asleep (o : α)
  /-- woken, but not yet taken off `waiters` -/
  | woken (o : α)
deriving DecidableEq, Repr

/-- What one passage through the locked part of a call does: the queues after it, what the callers see
of it, whether it notifies, and if it ends by waiting, with what the call goes on after that. -/
structure Crit (γ α : Type) where
  /-- the queues -/
  q : Queue γ
  /-- observations -/
  log : List (Obs γ)
  /-- `notify_one` was called -/
  notify : Bool
  /-- `some`: wait; `none`: return -/
  next : Option α

/-- The locked part of the main thread's calls, /repo/src/multithreading.rs:126-136, 162-184 (with `n`
waiters), 186-210, 213-241.  `none` is a panic. -/
def critM (q : Queue γ) (n : Nat) : MOp → Option (Crit γ MOp)
  | .pushCm p =>
    if q.cmLen ≠ 2 then
      let r := q.pushCm p
      some ⟨r.1, [.pushCm p r.2], n != 0, none⟩
    else some ⟨q, [], false, some (.pushCm p)⟩
  | .push b =>
    let r := q.push b
    some ⟨r.1, [.push b r.2.2], r.2.2 && n != 0, none⟩
  | .pull =>
    if q.resultReady = true then
      (q.pull ⟨slots, []⟩ (.none, .none) (.empty, .empty)).map fun r =>
        ⟨r.1, [.pull r.2.1.cmds r.2.2.1 r.2.2.2.1 r.2.2.2.2], n != 0, none⟩
    else
      match q.err with
      | none => some ⟨q, [], false, some .pull⟩
      | some e => some ⟨q, [.pull [] (.none, .none) (.empty, .empty) (.err e)], false, none⟩
  | .fail e => some ⟨q.fail e, [.fail e], n != 0, none⟩

/-- The second half of `force_push`, /repo/src/multithreading.rs:416-434; `log` and `notified` are of
the first half. -/
def forceCmds (q : Queue γ) (n : Nat) (log : List (Obs γ)) (notified : Bool) (cs : List γ)
    (pm : Option Pm) (eof : Bool) (data : Range) : Option (Crit γ (WOp γ)) :=
  if q.space (batch cs pm).cmds.length = true then
    let q1 := if eof = true then q.setEof else q
    let log1 := if eof = true then log ++ [Obs.pushEof q.pushEof.2] else log
    (q1.insert (batch cs pm) pm).map fun r =>
      ⟨r.1, log1 ++ [.insert cs pm], notified || n != 0, none⟩
  else
    match q.err with
    | none => some ⟨q, log, notified, some (.force cs pm eof data)⟩
    | some _ => some ⟨q, log, notified, none⟩

/-- The locked part of the worker thread's calls, /repo/src/multithreading.rs:126-136, 252-269,
272-293, 382-435.  `none` is a panic.  (`set_error` with an error that was broadcast is the same as
broadcasting it again, so it appears as that in the observations.) -/
def critW (q : Queue γ) (n : Nat) : WOp γ → Option (Crit γ (WOp γ))
  | .pullData =>
    if q.dataLen ≠ 0 then
      let r := q.pullData
      some ⟨r.1, [.pullData r.2], false, none⟩
    else some ⟨q, [], false, some .pullData⟩
  | .pullCm =>
    if q.cmLen ≠ 0 then
      let r := q.pullCm
      some ⟨r.1, [.pullCm r.2], n != 0, none⟩
    else some ⟨q, [], false, some .pullCm⟩
  | .force cs pm eof data =>
    if data.cap ≠ 0 then
      let r := q.pushConsumed data
      match r.2.2 with
      | .success => forceCmds r.1 n [.pushConsumed data .success] (n != 0) cs pm eof r.2.1
      | .needsOutput => some ⟨q, [], false, some (.force cs pm eof data)⟩
      | .failure e =>
        forceCmds (r.1.setError e) n [.pushConsumed data (.failure e), .fail e] (n != 0) cs pm eof data
    else forceCmds q n [] false cs pm eof data
  | .fail e => some ⟨q.fail e, [.fail e], n != 0, none⟩

/-- The two threads. -/
structure Sys (γ : Type) where
  /-- the queues (`waiters` kept apart) -/
  q : Queue γ
  /-- `waiters` -/
  waiters : Nat
  /-- the main thread -/
  main : Th MOp
  /-- the worker thread -/
  work : Th (WOp γ)
  /-- what the callers saw so far -/
  log : List (Obs γ)

/-- The start: `MultiWorker::new`, /repo/src/multithreading.rs:117-124. -/
def Sys.init (γ : Type) : Sys γ := ⟨Queue.new γ, 0, .idle, .idle, []⟩

/-- `notify_one` with one possible sleeper. -/
def Th.wake {α : Type} : Th α → Th α
  | .asleep o => .woken o
  | t => t

/-- What a thread does after the locked part. -/
def after {α : Type} : Option α → Th α
  | none => .idle
  | some o => .asleep o

/-- The count after the locked part. -/
def count {α : Type} (n : Nat) : Option α → Nat
  | none => n
  | some _ => n + 1

/-- One step of one thread.  `G` and `H` say which calls the threads may make, and when. -/
inductive Step (G : Sys γ → MOp → Prop) (H : Sys γ → WOp γ → Prop) : Sys γ → Sys γ → Prop
  | mStart {s : Sys γ} (o : MOp) : s.main = .idle → G s o → Step G H s { s with main := .wants o }
  | mRun {s : Sys γ} {o : MOp} {c : Crit γ MOp} : s.main = .wants o → critM s.q s.waiters o = some c →
      Step G H s ⟨c.q, count s.waiters c.next, after c.next,
        if c.notify = true then s.work.wake else s.work, s.log ++ c.log⟩
  | mAgain {s : Sys γ} {o : MOp} : s.main = .woken o →
      Step G H s { s with main := .wants o, waiters := s.waiters - 1 }
  | mSpurious {s : Sys γ} {o : MOp} : s.main = .asleep o → Step G H s { s with main := .woken o }
  | wStart {s : Sys γ} (o : WOp γ) : s.work = .idle → H s o → Step G H s { s with work := .wants o }
  | wRun {s : Sys γ} {o : WOp γ} {c : Crit γ (WOp γ)} : s.work = .wants o →
      critW s.q s.waiters o = some c →
      Step G H s ⟨c.q, count s.waiters c.next, if c.notify = true then s.main.wake else s.main,
        after c.next, s.log ++ c.log⟩
  | wAgain {s : Sys γ} {o : WOp γ} : s.work = .woken o →
      Step G H s { s with work := .wants o, waiters := s.waiters - 1 }
  | wSpurious {s : Sys γ} {o : WOp γ} : s.work = .asleep o → Step G H s { s with work := .woken o }

/-- The states the two threads can come to. -/
inductive Reach (G : Sys γ → MOp → Prop) (H : Sys γ → WOp γ → Prop) : Sys γ → Prop
  | init : Reach G H (Sys.init γ)
  | step {s t : Sys γ} : Reach G H s → Step G H s t → Reach G H t

/-- The states that can follow a state. -/
inductive Later (G : Sys γ → MOp → Prop) (H : Sys γ → WOp γ → Prop) (s : Sys γ) : Sys γ → Prop
  | refl : Later G H s s
  | step {t u : Sys γ} : Later G H s t → Step G H t u → Later G H s u

end Divans.Threads
