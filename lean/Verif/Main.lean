import Verif.Args
import Verif.Ir

/-!
# The command line program as a whole

`main` of `/repo/src/bin/divans.rs:1197-1713`, after its arguments (`Args`): which loop it runs, on which source and sink, and
what becomes of the files.
-/

namespace Divans.Main
open Divans.Io (Ev)
open Divans.Cli (WEv Machine)
open Divans.Args (Conf Step)

/-- The name of a file. -/
abbrev Name := List UInt8

/-- The files there are. -/
abbrev Files := Name → Option (List UInt8)

/-- The contents of one file replaced. -/
def Files.set (fs : Files) (name : Name) (bs : List UInt8) : Files := fun x => if x = name then some bs else fs x

/-- What the program finds. -/
structure Host where
  files : Files
  /-- whether a file of this name can be created -/
  creatable : Name → Bool
  /-- how contents arrive, read by read, in each run -/
  arrive : Nat → List UInt8 → List Ev
  stdin : List Ev
  /-- how the output takes what is written, in each run -/
  sink : Nat → List WEv

/-- A compressor and its initial state. -/
structure Engine where
  κ : Type
  machine : Machine κ
  start : κ

/-- A constructor that panics: no call succeeds, and nothing was written before the first. -/
def Engine.dead : Engine := ⟨Unit, ⟨fun _ _ _ _ => none, fun _ _ _ => none⟩, ()⟩

/-- What is not modelled: dictionary words, the packing of prediction modes by the brotli crate, and the compressor with its
encoder inside. -/
structure Env where
  dw : Nat → Nat → Nat → List UInt8
  pack : Text.Pred → Codec.PmIn
  brotli : Ffi.Options → Engine

/-- The compressor `compress_raw` constructs, `/repo/src/bin/divans.rs:892-942`. -/
def Env.engine (v : Env) (o : Ffi.Options) : Engine :=
  if o.select = .internal then
    match Ffi.codecOpts o with
    | some c => ⟨Compressor.Comp, Cli.plain c v.dw, .new o.window⟩
    | none => .dead
  else v.brotli o

/-- One run, with at most `n` steps inside a call of the codec and so many rounds of the loop: what was written and whether
there was no error (every error is a panic of `main`); `none` if it does not end.  Without threads.
`/repo/src/bin/divans.rs:1622-1649, 1659-1680, 1684-1710`. -/
def once (v : Env) (n rounds : Nat) (c : Conf) (src : List Ev) (sink : List WEv) : Option (List UInt8 × Bool) :=
  if c.doCompress = true ∧ c.raw = false then
    match Ffi.codecOpts c.opts with
    | some o => (Ir.compressIr o v.dw v.pack n rounds src sink).map fun x => (x.1, decide (x.2 = .ok))
    | none => some ([], false)
  else if c.doCompress = true then
    (Cli.compressRaw (v.engine c.opts).machine v.dw n rounds (v.engine c.opts).start c.buffer c.force src sink).map
      fun x => (x.1, decide (x.2 = .ok))
  else if c.recode = true then (Ir.recode v.dw n rounds src sink).map fun x => (x.1, decide (x.2 = .ok))
  else (Cli.decompress v.dw n rounds c.skipCrc c.buffer [] src sink).map fun x => (x.1, decide (x.2 = .ok))

/-- Writing from the beginning of a file that is not cut. -/
def overlay (new old : List UInt8) : List UInt8 := new ++ old.drop new.length

/-- `for i in 0..num_benchmarks`: both files are wound back between runs, and the output is not cut.  If input and output are
the same file, a run is taken to read what the file holds when the run begins.  `/repo/src/bin/divans.rs:1621-1654`. -/
def runs (h : Host) (run : List Ev → List WEv → Option (List UInt8 × Bool)) (inp out : Name) : Nat → Nat → Files → Option (Files × Bool)
  | 0, _, fs => some (fs, true)
  | k + 1, i, fs =>
    match run (h.arrive i ((fs inp).getD [])) (h.sink i) with
    | none => none
    | some (w, ok) =>
      let fs' := fs.set out (overlay w ((fs out).getD []))
      if ok then runs h run inp out k (i + 1) fs' else some (fs', false)

/-- How the program ends. -/
inductive Exit where
  | ok
  | panic
  deriving DecidableEq, Repr

/-- Without an output file there is one run, and what it writes goes to standard output. -/
def toStdout (h : Host) (c : Conf) (run : List Ev → List WEv → Option (List UInt8 × Bool)) (src : List Ev) :
    Option (Files × List UInt8 × Exit) :=
  if c.benchmarks = 1 then (run src (h.sink 0)).map fun x => (h.files, x.1, if x.2 then .ok else .panic)
  else some (h.files, [], .panic)

/-- After the arguments, `/repo/src/bin/divans.rs:1592-1712`: the files, what was written to standard output, and how it ended. -/
def work (v : Env) (h : Host) (n rounds : Nat) (c : Conf) : Option (Files × List UInt8 × Exit) :=
  if c.file0 ≠ [] then
    match h.files c.file0 with
    | none => some (h.files, [], .panic)
    | some bs =>
      if c.file1 ≠ [] then
        if h.creatable c.file1 then
          (runs h (once v n rounds c) c.file0 c.file1 c.benchmarks 0 (h.files.set c.file1 [])).map
            fun x => (x.1, [], if x.2 then .ok else .panic)
        else some (h.files, [], .panic)
      else toStdout h c (once v n rounds c) (h.arrive 0 bs)
  else toStdout h c (once v n rounds c) h.stdin

/-- `main`.  The texts of `-help` and `-version` are left out. -/
def main (v : Env) (h : Host) (n rounds : Nat) (as : List (List UInt8)) : Option (Files × List UInt8 × Exit) :=
  match Args.args .default as with
  | .go c => work v h n rounds c
  | .quit => some (h.files, [], .ok)
  | .crash => some (h.files, [], .panic)

end Divans.Main
