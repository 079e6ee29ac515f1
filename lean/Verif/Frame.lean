import Verif.Mux
import Verif.MuxProps
import Verif.Crc

/-!
# The container around the multiplexed streams

A compressed file is a header of sixteen bytes, the multiplexed streams and a trailer of eight bytes
with a checksum.  This file models the code that writes header and trailer and the code that parses
the header.
-/

namespace Divans.Frame

/-- `MAGIC_NUMBER`, `/repo/src/interface.rs:164`. -/
def magic : List UInt8 := [0xff, 0xe5, 0x8c, 0x9f]

/-- `make_header`, `/repo/src/divans_compressor.rs:126-131`. -/
def makeHeader (window : UInt8) : List UInt8 :=
  magic ++ [0, window, 0, 0, 0, 0, 0, 0, 0, 0, 0, 0]

/-- The window size of a compressor from its options (an `i32`, 22 by default), cut down to a byte.
`/repo/src/divans_compressor.rs:90, 121`. -/
def windowOf (opt : Option Int) : UInt8 :=
  UInt8.ofNat (min 24 (max 10 (opt.getD 22))).toNat

/-- The eight bytes after the streams, `/repo/src/codec/mod.rs:535-543`. -/
def trailer (crc : Nat) : List UInt8 :=
  [UInt8.ofNat (crc % 256), UInt8.ofNat (crc / 2 ^ 8 % 256), UInt8.ofNat (crc / 2 ^ 16 % 256),
   UInt8.ofNat (crc / 2 ^ 24 % 256), 0x61, 0x6e, 0x73, 0x7e]

/-! ## Writing -/

/-- How far the compressor has come: commands are taken, the multiplexer is emptied, the trailer is
written with `count` bytes done, everything is written.  `EncodeOrDecodeState`,
`/repo/src/codec/mod.rs:134-145`. -/
inductive Stage where
  | code
  | drain
  | check (count : Nat)
  | done
  deriving DecidableEq, Repr

/-- The compressor as seen by the container: header progress, multiplexer, running checksum.  After
the checksum is frozen it is no longer changed, so one field serves for both.
`/repo/src/divans_compressor.rs:45-62`, `/repo/src/codec/mod.rs:160-186`. -/
structure Cmp where
  window : UInt8
  progress : Nat
  mux : Mux.Mux
  crc : Nat
  stage : Stage

/-- A new compressor. -/
def Cmp.new (window : UInt8) : Cmp := ⟨window, 0, Mux.Mux.new, Crc.init, .code⟩

/-- `write_header` into an output of `room` bytes: the bytes written, and whether the header is now
complete.  `/repo/src/divans_compressor.rs:150-174`; every caller skips it once the header is
complete (281-287, 344-350, 366-372). -/
def Cmp.header (c : Cmp) (room : Nat) : Cmp × List UInt8 × Bool :=
  if c.progress = 16 then (c, [], true)
  else if room + c.progress < 16 then
    let w := ((makeHeader c.window).drop c.progress).take room
    ({ c with progress := c.progress + room, crc := Crc.update c.crc w }, w, false)
  else
    let w := (makeHeader c.window).drop c.progress
    ({ c with progress := 16, crc := Crc.update c.crc w }, w, true)

/-- One operation of the coders on the multiplexer while commands are coded; bytes written go into
the checksum.  `/repo/src/codec/mod.rs:604-611, 416-421`.  The code hashes the output of a call at
its end, here it is hashed operation by operation. -/
def Cmp.code (c : Cmp) (op : Mux.MOp) : Option (Cmp × List UInt8) :=
  (op.run c.mux).map fun x => ({ c with mux := x.1, crc := Crc.update c.crc x.2 }, x.2)

/-- The loop that empties the multiplexer; the result says whether the end marker is written.  The
first argument bounds the number of rounds.  `/repo/src/codec/mod.rs:502-515`. -/
def drain : Nat → Mux.Mux → Nat → Option (Mux.Mux × List UInt8 × Bool)
  | 0, _, _ => none
  | fuel + 1, m, room =>
    if room = 0 then some (m, [], false)
    else
      match Mux.serializeClose m room with
      | none => none
      | some (m', out) =>
        if m'.isEof then some (m', out, true)
        else (drain fuel m' (room - out.length)).map fun x => (x.1, out ++ x.2.1, x.2.2)

/-- Writing the trailer, `/repo/src/codec/mod.rs:528-555`. -/
def Cmp.check (c : Cmp) (count room : Nat) : Cmp × List UInt8 × Bool :=
  let w := ((trailer c.crc).drop count).take (min room (8 - count))
  if 8 - count ≤ room then ({ c with stage := .done }, w, true)
  else ({ c with stage := .check (count + min room (8 - count)) }, w, false)

/-- The last part of `flush`, after the coders have been shut down: empty the multiplexer, freeze the
checksum, write the trailer.  The result says whether success is reported.
`/repo/src/codec/mod.rs:409-422, 502-556`. -/
def Cmp.finish (c : Cmp) (room : Nat) : Option (Cmp × List UInt8 × Bool) :=
  match c.stage with
  | .done => some (c, [], true)
  | .check count => some (c.check count room)
  | _ =>
    match drain (room + 2) c.mux room with
    | none => none
    | some (m, out, false) =>
      some ({ c with mux := m, crc := Crc.update c.crc out, stage := .drain }, out, false)
    | some (m, out, true) =>
      let r := ({ c with mux := m, crc := Crc.update c.crc out, stage := .check 0 } : Cmp).check 0
        (room - out.length)
      some (r.1, out ++ r.2.1, r.2.2)

/-- `flush`, with the header first.  What it does in between, coding the commands left over and
shutting down the coders, are `code` operations of the history.
`/repo/src/divans_compressor.rs:362-420`. -/
def Cmp.flush (c : Cmp) (room : Nat) : Option (Cmp × List UInt8 × Bool) :=
  match c.header room with
  | (c', w, false) => some (c', w, false)
  | (c', w, true) => (c'.finish (room - w.length)).map fun x => (x.1, w ++ x.2.1, x.2.2)

/-- What a compressor does to its output: begin a call with `room` bytes of output, an operation of
the coders, flush into `room` bytes. -/
inductive COp where
  | begin (room : Nat)
  | code (op : Mux.MOp)
  | flush (room : Nat)

/-- Perform an operation; also returns the bytes written. -/
def COp.run (c : Cmp) : COp → Option (Cmp × List UInt8)
  | .begin room => let r := c.header room; some (r.1, r.2.1)
  | .code op => c.code op
  | .flush room => (c.flush room).map fun x => (x.1, x.2.1)

/-- A history and all bytes written. -/
def crun : Cmp → List COp → Option (Cmp × List UInt8)
  | c, [] => some (c, [])
  | c, op :: ops => (op.run c).bind fun x => (crun x.1 ops).map fun y => (y.1, x.2 ++ y.2)

/-- When an operation may occur: the coders work only behind a complete header and not after
flushing has got to emptying the multiplexer, they respect the multiplexer's rules, and only flushing
closes it. -/
def COp.allowed (c : Cmp) : COp → Bool
  | .code op =>
    decide (c.progress = 16) && decide (c.stage = .code) && op.allowed c.mux &&
      (match op with | .close _ => false | _ => true)
  | _ => true

/-- A history that respects `allowed` at every step. -/
def clegal : Cmp → List COp → Bool
  | _, [] => true
  | c, op :: ops => op.allowed c && (match op.run c with | none => true | some (c', _) => clegal c' ops)

/-- The bytes of stream `i` handed to the multiplexer in a history. -/
def coded (i : Bool) : List COp → List UInt8
  | [] => []
  | .code op :: ops => op.data i ++ coded i ops
  | _ :: ops => coded i ops

/-! ## Parsing the header -/

/-- `parse_header`: the window size, or failure.  `/repo/src/divans_decompressor.rs:38-52`. -/
def parseHeader (h : List UInt8) : Option Nat :=
  if h.getD 0 0 ≠ 0xff ∨ h.getD 1 0 ≠ 0xe5 then none
  else if h.getD 2 0 ≠ 0x8c ∨ h.getD 3 0 ≠ 0x9f then none
  else if (h.getD 5 0).toNat < 10 ∨ (h.getD 5 0).toNat ≥ 25 then none
  else some (h.getD 5 0).toNat

/-- What a call of the header parser results in: more bytes needed (with those collected so far), the
header complete with its window size, or failure; in the last two cases also how many bytes of the
input were used. -/
inductive HRes where
  | more (got : List UInt8)
  | ready (header : List UInt8) (window used : Nat)
  | fail (used : Nat)
  deriving DecidableEq, Repr

/-- `HeaderParser::decode`, `got` are the bytes collected by earlier calls.
`/repo/src/divans_decompressor.rs:53-81`. -/
def headerDecode (got input : List UInt8) : HRes :=
  let left := 16 - got.length
  if input.length ≥ left then
    let h := got ++ input.take left
    match parseHeader h with
    | some w => .ready h w left
    | none => .fail left
  else .more (got ++ input)

end Divans.Frame
