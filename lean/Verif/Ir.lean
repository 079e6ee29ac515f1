import Verif.Text
import Verif.Cli
import Verif.Recode

/-!
# The programs for the textual command format

`compress_ir` (`divans -i`) and `recode` (`divans -d -recode`) of `/repo/src/bin/divans.rs`: lines are read from a source,
every line is parsed as a command (`Text.lean`), the commands are given to a compressor or to a recoder sixteen at a time,
and what comes out is written to a sink.
-/

namespace Divans.Ir
open Divans.Io (Ev)
open Divans.Cli (WEv)

/-! ## Lines -/

/-- What `read_line` returns, until it returns `Ok(0)` or the program ends.  A line has its line feed. -/
inductive Read where
  | line (l : List UInt8)
  /-- an error other than `Interrupted`, which `read_line` never returns -/
  | fail
  deriving DecidableEq, Repr

/-- Cut bytes into lines; `acc` is the beginning of the current line.  The lines that are complete and the rest. -/
def cut : List UInt8 → List UInt8 → List Read × List UInt8
  | acc, [] => ([], acc)
  | acc, b :: bs =>
    if b = 10 then
      let x := cut [] bs
      (.line (acc ++ [b]) :: x.1, x.2)
    else cut (acc ++ [b]) bs

/-- The results of `BufRead::read_line` on a source (standard library; the loops that call it,
`/repo/src/bin/divans.rs:558-568, 649-659, 952-966, 1115-1129`).  At the end of the source a line without line feed is
returned, and after that the source is asked again.  When the source fails, the rest of the line is lost. -/
def reads (acc : List UInt8) : List Ev → List Read
  | [] => if acc = [] then [] else [.line acc]
  | .interrupted :: t => reads acc t
  | .fail :: _ => [.fail]
  | .data [] :: t => if acc = [] then [] else .line acc :: reads [] t
  | .data (b :: bs) :: t => (cut acc (b :: bs)).1 ++ reads (cut acc (b :: bs)).2 t

/-- White space of one byte: tab, line feed, vertical tab, form feed, carriage return, space. -/
def blank1 (b : UInt8) : Bool := (9 ≤ b && b ≤ 13) || b == 32

/-- White space of two bytes: U+0085, U+00A0. -/
def blank2 (b c : UInt8) : Bool := b == 0xC2 && (c == 0x85 || c == 0xA0)

/-- White space of three bytes: U+1680, U+2000 to U+200A, U+2028, U+2029, U+202F, U+205F, U+3000. -/
def blank3 (b c d : UInt8) : Bool :=
  (b == 0xE1 && c == 0x9A && d == 0x80) ||
  (b == 0xE2 && c == 0x80 && ((0x80 ≤ d && d ≤ 0x8A) || d == 0xA8 || d == 0xA9 || d == 0xAF)) ||
  (b == 0xE2 && c == 0x81 && d == 0x9F) ||
  (b == 0xE3 && c == 0x80 && d == 0x80)

/-- `trim_left` on the bytes of a valid string. -/
def trimStart : List UInt8 → List UInt8
  | [] => []
  | b :: t =>
    if blank1 b then trimStart t
    else
      match t with
      | [] => b :: t
      | c :: t' =>
        if blank2 b c then trimStart t'
        else
          match t' with
          | [] => b :: t
          | d :: t'' => if blank3 b c d then trimStart t'' else b :: t

/-- `trim_right`, on the reversed bytes of a valid string. -/
def trimBack : List UInt8 → List UInt8
  | [] => []
  | d :: t =>
    if blank1 d then trimBack t
    else
      match t with
      | [] => d :: t
      | c :: t' =>
        if blank2 c d then trimBack t'
        else
          match t' with
          | [] => d :: t
          | b :: t'' => if blank3 b c d then trimBack t'' else d :: t

/-- `str::trim`, as called in `/repo/src/bin/divans.rs:579, 671, 961, 1124`. -/
def trim (s : List UInt8) : List UInt8 := (trimBack (trimStart s).reverse).reverse

/-! ## The sink -/

/-- `Write::write_all` of the standard library: the sink afterwards, what it took, and whether there was no error.  A sink
that takes nothing is an error (`WriteZero`). -/
def writeAll : List WEv → List UInt8 → List WEv × List UInt8 × Bool
  | sink, [] => (sink, [], true)
  | [], b :: bs => ([], b :: bs, true)
  | .took n :: t, b :: bs =>
    if n = 0 then (t, [], false)
    else
      let x := writeAll t ((b :: bs).drop n)
      (x.1, (b :: bs).take n ++ x.2.1, x.2.2)
  | .interrupted :: t, b :: bs => writeAll t (b :: bs)
  | .fail :: t, _ :: _ => (t, [], false)

/-! ## The loops -/

/-- How the program ends. -/
inductive Outcome where
  /-- `Ok(())` -/
  | ok
  /-- an error of the source or the sink, or a line that is not text -/
  | ioErr
  /-- an error in the text -/
  | textErr
  /-- an error of the codec -/
  | codecErr
  /-- a panic -/
  | crash
  deriving DecidableEq, Repr

/-- The trait `Compressor`, `/repo/src/interface.rs:292-306`, as far as it is used here: `encode_commands` and `flush`, with at
most so many steps inside a call.  `none` is a panic. -/
structure Scribe (κ γ : Type) where
  /-- `encode_commands`: the commands from `input_offset` on, room; how many are taken -/
  commands : Nat → κ → List γ → Nat → Option (κ × Nat × List UInt8 × Eng.Code)
  /-- `flush`: room -/
  flush : Nat → κ → Nat → Option (κ × List UInt8 × Eng.Code)

variable {κ γ : Type}

/-- The compressor or recoder, the sink, and what the sink took. -/
structure Job (κ : Type) where
  comp : κ
  sink : List WEv
  written : List UInt8

/-- `w.write_all(…)`, with another compressor. -/
def Job.write (j : Job κ) (c : κ) (out : List UInt8) : Job κ × Bool :=
  let x := writeAll j.sink out
  (⟨c, x.1, j.written ++ x.2.1⟩, x.2.2)

/-- `recode_cmd_buffer` with an output buffer of `size` bytes and at most `n` steps inside a call.  The last component is
`none` if there was no error, and the whole is `none` if so many rounds are not enough.
`/repo/src/bin/divans.rs:485-524`. -/
def feed (t : Scribe κ γ) (n size : Nat) : Nat → Job κ → List γ → Option (Job κ × Option Outcome)
  | _, j, [] => some (j, none)
  | 0, _, _ :: _ => none
  | k + 1, j, x :: xs =>
    match t.commands n j.comp (x :: xs) size with
    | none => some (j, some .crash)
    | some (c, used, out, code) =>
      match code with
      | .success =>
        if used = (x :: xs).length then
          some ((j.write c out).1, if (j.write c out).2 then none else some .ioErr)
        else some (j, some .crash)
      | .needsOutput =>
        if out = [] then some (j, some .crash)
        else if (j.write c out).2 then feed t n size k (j.write c out).1 ((x :: xs).drop used)
        else some ((j.write c out).1, some .ioErr)
      | _ => some (j, some .codecErr)

/-- The loop that flushes, `/repo/src/bin/divans.rs:582-603, 683-705`. -/
def close (t : Scribe κ γ) (n size : Nat) : Nat → Job κ → Option (Job κ × Outcome)
  | 0, _ => none
  | k + 1, j =>
    match t.flush n j.comp size with
    | none => some (j, .crash)
    | some (c, out, code) =>
      match code with
      | .success => some ((j.write c out).1, if (j.write c out).2 then .ok else .ioErr)
      | .needsOutput =>
        if out = [] then some (j, .crash)
        else if (j.write c out).2 then close t n size k (j.write c out).1
        else some ((j.write c out).1, .ioErr)
      | _ => some (j, .codecErr)

/-- `.unwrap()` in `recode_inner`, `try!` in `compress_inner`. -/
def unwrap (strict : Bool) (e : Outcome) : Outcome := if strict then .crash else e

/-- `CMD_BUFFER_SIZE`, `/repo/src/codec/mod.rs:22`. -/
def slots : Nat := 16

/-- `compress_inner` and `recode_inner`: `buf` holds the commands not yet given to the compressor.
`/repo/src/bin/divans.rs:526-606, 614-708`. -/
def tell (t : Scribe κ γ) (conv : Text.Cmd → γ) (strict : Bool) (n rounds size : Nat) :
    List Read → Job κ → List γ → Option (Job κ × Outcome)
  | [], j, buf =>
    match feed t n size rounds j buf with
    | none => none
    | some (j1, some e) => some (j1, unwrap strict e)
    | some (j1, none) => close t n size rounds j1
  | .fail :: _, j, _ => some (j, .ioErr)
  | .line l :: rest, j, buf =>
    if Text.validUtf8 l = false then some (j, .ioErr)
    else
      match feed t n size rounds j (if buf.length = slots then buf else []) with
      | none => none
      | some (j1, some e) => some (j1, unwrap strict e)
      | some (j1, none) =>
        match Text.parse (trim l) with
        | .panic => some (j1, .crash)
        | .err => some (j1, unwrap strict .textErr)
        | .ok none => tell t conv strict n rounds size rest j1 (if buf.length = slots then [] else buf)
        | .ok (some c) =>
          tell t conv strict n rounds size rest j1 ((if buf.length = slots then [] else buf) ++ [conv c])

/-- The first line: the window size and the lines after it, or how the program ends.
`/repo/src/bin/divans.rs:950-966, 1112-1129`. -/
def firstLine (strict : Bool) : List Read → Except Outcome (Int × List Read)
  | .fail :: _ => .error .ioErr
  | [] =>
    match Text.parseWindow [] with
    | .ok w => .ok (w, [])
    | .err => .error (unwrap strict .textErr)
    | .panic => .error .crash
  | .line l :: rest =>
    if Text.validUtf8 l = false then .error .ioErr
    else
      match Text.parseWindow (trim l) with
      | .ok w => .ok (w, rest)
      | .err => .error (unwrap strict .textErr)
      | .panic => .error .crash

/-! ## The two programs -/

/-- The compressor. -/
def compressor (o : Codec.Opts) (dw : Nat → Nat → Nat → List UInt8) : Scribe Compressor.Comp Pipe.Item :=
  ⟨fun n c => c.encodeCommands o dw n, fun n c => c.flush o dw n⟩

/-- The commands of the compressor.  `pack` is what the brotli crate makes of a prediction mode; the announced size of a
dictionary word is kept by the recoder inside the compressor only, see `Pipe.Item.ringCmd`. -/
def item (pack : Text.Pred → Codec.PmIn) : Text.Cmd → Pipe.Item
  | .pred p => .pm (pack p)
  | .switchLit b s => .bswitch .lit (UInt8.ofNat b) s
  | .switchCmd b => .bswitch .cmd (UInt8.ofNat b) 0
  | .switchDist b => .bswitch .dist (UInt8.ofNat b) 0
  | .copy num distance => .copy distance num
  | .dict _ size id transform => .dict size id transform
  | .lit data e => .lit data e

/-- `DivansOutputResult`. -/
def codeOf : Recode.Res → Eng.Code
  | .ok => .success
  | .more => .needsOutput
  | .fail => .failure

/-- The recoder, `/repo/src/cmd_to_raw/mod.rs:90-121, 378-406`.  `recode_inner` calls the method `flush` of the type itself, not
the one of the trait, which does nothing. -/
def recoder : Scribe Recode.St Recode.Cmd :=
  ⟨fun _ s cs room =>
    match Recode.encodeCommands s cs room with
    | .done ((s', o, r), rest) => some (s', cs.length - rest.length, o, codeOf r)
    | _ => none,
   fun _ s room => (Recode.flush s room).map fun x => (x.1, x.2.1, codeOf x.2.2)⟩

/-- The commands of the recoder. -/
def ringCmd (dw : Nat → Nat → Nat → List UInt8) : Text.Cmd → Recode.Cmd
  | .copy num distance => .copy distance num
  | .dict final size id transform => .dict (dw size id transform) final
  | .lit data _ => .lit data
  | _ => .other

/-- The size of the output buffer, `/repo/src/bin/divans.rs:533, 627`. -/
def outSize : Nat := 65536

/-- `compress_ir`: what the sink took and how it ended.  `/repo/src/bin/divans.rs:945-978`. -/
def compressIr (o : Codec.Opts) (dw : Nat → Nat → Nat → List UInt8) (pack : Text.Pred → Codec.PmIn) (n rounds : Nat)
    (src : List Ev) (sink : List WEv) : Option (List UInt8 × Outcome) :=
  match firstLine false (reads [] src) with
  | .error e => some ([], e)
  | .ok (w, rest) =>
    (tell (compressor o dw) (item pack) false n rounds outSize rest ⟨.new (some w), sink, []⟩ []).map fun x => (x.1.written, x.2)

/-- `recode`: what the sink took and how it ended.  `/repo/src/bin/divans.rs:1108-1195`. -/
def recode (dw : Nat → Nat → Nat → List UInt8) (n rounds : Nat) (src : List Ev) (sink : List WEv) :
    Option (List UInt8 × Outcome) :=
  match firstLine true (reads [] src) with
  | .error e => some ([], e)
  | .ok (w, rest) =>
    if 10 ≤ w ∧ w ≤ 24 then
      (tell recoder (ringCmd dw) true n rounds outSize rest ⟨.new (List.replicate (2 ^ w.toNat) 0), sink, []⟩ []).map
        fun x => (x.1.written, x.2)
    else some ([], .textErr)

end Divans.Ir
