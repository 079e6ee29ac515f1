import Verif.Main
import Verif.ParFree

/-!
# The command line program with a worker thread

As `Verif.Main`, with what is the default: unless `-serial` is among its settings, the program decompresses with a worker
thread.  Its `decompress` also frees the decompressor, whatever its loop comes to, before the result is reported.
-/

namespace Divans.Main
open Divans.Io (Ev)
open Divans.Cli (WEv Machine)
open Divans.Args (Conf)

/-- What the threads do in one run: who goes next during the calls, and how many steps the worker's thread makes between the
last call and `free`. -/
structure Timing where
  sched : Par.Sched
  moment : Nat

/-- `decompress` with a worker thread: the loop, then `free`; `none`: it does not end, or not with so many steps.  If a call of
`decode` has failed or panicked, what `free` does is not modelled, and the program is taken to end with that error.
`/repo/src/bin/divans.rs:980-1003`. -/
def unpackFree (t : Timing) (dw : Nat → Nat → Nat → List UInt8) (n rounds : Nat) (skip : Bool) (size : Nat) (extra : List UInt8)
    (src : List Ev) (sink : List WEv) : Option (List UInt8 × Cli.Outcome) :=
  match Par.unpacked t.sched dw skip n rounds size extra src sink with
  | none => none
  | some (w, e, d) =>
    if e = .codecErr ∨ e = .crash then some (w, e)
    else
      match d.stage with
      | .header _ => some (w, e)
      | .body p =>
        match (p.works t.moment).freed n with
        | some .returns => some (w, e)
        | some .panics => some (w, .crash)
        | _ => none

/-- `decompress` with a worker thread or without one. -/
def unpack (parallel : Bool) (t : Timing) (dw : Nat → Nat → Nat → List UInt8) (n rounds : Nat) (skip : Bool) (size : Nat)
    (extra : List UInt8) (src : List Ev) (sink : List WEv) : Option (List UInt8 × Cli.Outcome) :=
  if parallel then unpackFree t dw n rounds skip size extra src sink else Cli.decompress dw n rounds skip size extra src sink

/-- `compress_raw`, as `Cli.compressRaw`.  `/repo/src/bin/divans.rs:852-944`. -/
def compressRaw {κ : Type} (parallel : Bool) (t : Timing) (m : Machine κ) (dw : Nat → Nat → Nat → List UInt8) (n rounds : Nat) (c : κ)
    (size : Nat) (force : Bool) (src : List Ev) (sink : List WEv) : Option (List UInt8 × Cli.Outcome) :=
  if force then Cli.compressInner m n rounds c (Io.bufSize size) [] src sink
  else
    match Cli.peek [] src with
    | (_, _, false) => some ([], .ioErr)
    | (got, src', true) =>
      if Cli.isDivans got then unpack parallel t dw n rounds false size got src' sink
      else Cli.compressInner m n rounds c (Io.bufSize size) got src' sink

/-- One run, as `once`.  `/repo/src/bin/divans.rs:1622-1649, 1659-1680, 1684-1710`. -/
def onceP (v : Env) (t : Timing) (n rounds : Nat) (c : Conf) (src : List Ev) (sink : List WEv) : Option (List UInt8 × Bool) :=
  if c.doCompress = true ∧ c.raw = false then once v n rounds c src sink
  else if c.doCompress = true then
    (compressRaw c.parallel t (v.engine c.opts).machine v.dw n rounds (v.engine c.opts).start c.buffer c.force src sink).map
      fun x => (x.1, decide (x.2 = .ok))
  else if c.recode = true then once v n rounds c src sink
  else (unpack c.parallel t v.dw n rounds c.skipCrc c.buffer [] src sink).map fun x => (x.1, decide (x.2 = .ok))

/-- The runs, as `runs`; in each of them the threads go their own way.  `/repo/src/bin/divans.rs:1621-1654`. -/
def runsP (h : Host) (run : Nat → List Ev → List WEv → Option (List UInt8 × Bool)) (inp out : Name) :
    Nat → Nat → Files → Option (Files × Bool)
  | 0, _, fs => some (fs, true)
  | k + 1, i, fs =>
    match run i (h.arrive i ((fs inp).getD [])) (h.sink i) with
    | none => none
    | some (w, ok) =>
      let fs' := fs.set out (overlay w ((fs out).getD []))
      if ok then runsP h run inp out k (i + 1) fs' else some (fs', false)

/-- After the arguments, as `work`.  `/repo/src/bin/divans.rs:1592-1712`. -/
def workP (v : Env) (h : Host) (t : Nat → Timing) (n rounds : Nat) (c : Conf) : Option (Files × List UInt8 × Exit) :=
  if c.file0 ≠ [] then
    match h.files c.file0 with
    | none => some (h.files, [], .panic)
    | some bs =>
      if c.file1 ≠ [] then
        if h.creatable c.file1 then
          (runsP h (fun i => onceP v (t i) n rounds c) c.file0 c.file1 c.benchmarks 0 (h.files.set c.file1 [])).map
            fun x => (x.1, [], if x.2 then .ok else .panic)
        else some (h.files, [], .panic)
      else toStdout h c (onceP v (t 0) n rounds c) (h.arrive 0 bs)
  else toStdout h c (onceP v (t 0) n rounds c) h.stdin

/-- `main`, as `main`. -/
def mainP (v : Env) (h : Host) (t : Nat → Timing) (n rounds : Nat) (as : List (List UInt8)) : Option (Files × List UInt8 × Exit) :=
  match Args.args .default as with
  | .go c => workP v h t n rounds c
  | .quit => some (h.files, [], .ok)
  | .crash => some (h.files, [], .panic)

end Divans.Main
