import Verif.HybridIoProps
import Verif.ParIoProps

/-!
# The example programs that work as filters

`/repo/examples/compress.rs` and `/repo/examples/decompress.rs`: from the standard input to the standard output, by way of
`std::io::copy` and the adaptors of C25 and C26.  `io::copy` belongs to the standard library; what it does is taken from its
documentation: it reads until the end, repeats a read that was interrupted, writes all of what each read gave, and returns the
first error.  The programs call `unwrap` on what it returns: an error is a panic.
-/

namespace Divans.Filters
open Divans.Io

variable {σ : Type}

/-- How a program ends. -/
inductive End where
  /-- it returns from `main` -/
  | ok
  /-- `unwrap` panics -/
  | panic
deriving Repr, DecidableEq

/-- `io::copy(&mut io::stdin(), &mut writer)`, `/repo/examples/compress.rs:35`.  Each event of the source is one read; the model
does not limit what it gives to the buffer of `copy`.  Also says whether it succeeded.  A `write` of the adaptor takes all or
fails, and its error is never an interruption, so that `write_all` calls it once. -/
def copyIn (p : Proc σ) (fuel : Nat) : List Ev → Writer σ → List Entry → Option (Writer σ × List Entry × Bool)
  | [], w, log => some (w, log, true)
  | .data [] :: _, w, log => some (w, log, true)
  | .interrupted :: t, w, log => copyIn p fuel t w log
  | .fail :: _, w, log => some (w, log, false)
  | .data (b :: bs) :: t, w, log =>
    match w.write p fuel (b :: bs) log with
    | none => none
    | some (w', log', .ok _) => copyIn p fuel t w' log'
    | some (w', log', _) => some (w', log', false)

/-- `main` of `/repo/examples/compress.rs:6-38`, around any writer: copy, `unwrap`, flush, `unwrap`.  `sinkOk`: whether the flush of
the standard output succeeds. -/
def compressMain (p : Proc σ) (fuel : Nat) (src : List Ev) (sinkOk : Bool) (w : Writer σ) : Option (Writer σ × List Entry × End) :=
  match copyIn p fuel src w [] with
  | none => none
  | some (w', log, false) => some (w', log, .panic)
  | some (w', log, true) =>
    match w'.flush p sinkOk fuel log with
    | none => none
    | some (w'', log', .ok _) => some (w'', log', .ok)
    | some (w'', log', _) => some (w'', log', .panic)

/-- `io::copy(&mut reader, &mut io::stdout()).unwrap()`, `/repo/examples/decompress.rs:17`, with a buffer of `cap` bytes, in at
most so many rounds; `sink` as in `Writer`.  What was written, and the end.  What the standard output still holds is written when
the process ends; the model takes that as done with the write. -/
def copyOut (p : Proc σ) (fuel cap : Nat) : Nat → Reader σ → List Bool → List Entry → Option (List UInt8 × End)
  | 0, _, _, _ => none
  | rounds + 1, s, sink, log =>
    match s.read p fuel cap log with
    | none => none
    | some (_, _, .ok []) => some ([], .ok)
    | some (s', log', .ok (b :: bs)) =>
      match sink with
      | false :: _ => some ([], .panic)
      | [] => (copyOut p fuel cap rounds s' [] log').map fun x => ((b :: bs) ++ x.1, x.2)
      | true :: t => (copyOut p fuel cap rounds s' t log').map fun x => ((b :: bs) ++ x.1, x.2)
    | some (_, _, _) => some ([], .panic)

/-- The buffer of the adaptors in both programs, `/repo/examples/compress.rs:33`, `/repo/examples/decompress.rs:13`. -/
def bufferSize : Nat := 4096

/-- What a program reads: the bytes before the end of the source. -/
def before : List Ev → List UInt8
  | [] => []
  | .data [] :: _ => []
  | .data (b :: bs) :: t => (b :: bs) ++ before t
  | .interrupted :: t => before t
  | .fail :: t => before t

/-- The source fails before it ends. -/
def breaks : List Ev → Bool
  | [] => false
  | .data [] :: _ => false
  | .data (_ :: _) :: t => breaks t
  | .interrupted :: t => breaks t
  | .fail :: _ => true

/-- What each read before the end gives. -/
def pieces : List Ev → List (List UInt8)
  | [] => []
  | .data [] :: _ => []
  | .data (b :: bs) :: t => (b :: bs) :: pieces t
  | .interrupted :: t => pieces t
  | .fail :: t => pieces t

end Divans.Filters
