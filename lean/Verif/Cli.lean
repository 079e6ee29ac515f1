import Verif.IoCodec
import Verif.IoRun

/-!
# The loops of the command line program

`compress_raw`, `compress_raw_inner`, `decompress` and `decompress_generic` of `/repo/src/bin/divans.rs`: a source and a
sink that give and take as much as they like, and the buffers between them and the codec.  Modelled without threads
(`multithread` false); the compressor is a parameter (`use_brotli` chooses between two).
-/

namespace Divans.Cli
open Divans.Io (Ev bufSize)

/-- What the next `write` of the sink does.  After the list is used up it takes everything. -/
inductive WEv where
  /-- takes that many bytes, or as many as there are -/
  | took (n : Nat)
  /-- `ErrorKind::Interrupted` -/
  | interrupted
  /-- any other error -/
  | fail
  deriving DecidableEq, Repr

/-- Writing a buffer to the sink: the sink afterwards, the bytes it took, and whether there was no error.  The loop
`while output_written != output_offset`, `/repo/src/bin/divans.rs:770-781, 806-819, 1039-1050, 1093-1104`. -/
def drain : List WEv → List UInt8 → List WEv × List UInt8 × Bool
  | sink, [] => (sink, [], true)
  | [], b :: bs => ([], b :: bs, true)
  | .took n :: t, b :: bs =>
    let x := drain t ((b :: bs).drop n)
    (x.1, (b :: bs).take n ++ x.2.1, x.2.2)
  | .interrupted :: t, b :: bs => drain t (b :: bs)
  | .fail :: t, _ :: _ => (t, [], false)

/-- How the program ends. -/
inductive Outcome where
  /-- `Ok(())` -/
  | ok
  /-- an error of the source or the sink -/
  | ioErr
  /-- an error of the codec -/
  | codecErr
  /-- `UnexpectedEof` -/
  | noEnd
  /-- a panic of the codec -/
  | crash
  deriving DecidableEq, Repr

/-! ## Decompressing -/

/-- What reading from the source gives. -/
inductive Filled where
  | bytes (bs : List UInt8)
  | ended
  | failed
  deriving DecidableEq, Repr

/-- Reading into a buffer with place for `place` more bytes: nothing is read if there is none.
`/repo/src/bin/divans.rs:1059-1088`. -/
def fill (place : Nat) : List Ev → List Ev × Filled
  | [] => if place = 0 then ([], .bytes []) else ([], .ended)
  | e :: t =>
    if place = 0 then (e :: t, .bytes [])
    else
      match e with
      | .interrupted => fill place t
      | .fail => (t, .failed)
      | .data [] => (t, .ended)
      | .data (b :: bs) =>
        (if place < (b :: bs).length then .data ((b :: bs).drop place) :: t else t, .bytes ((b :: bs).take place))

/-- `decompress_generic` between two calls of the decompressor, `/repo/src/bin/divans.rs:1015-1023`. -/
structure Unpack where
  /-- the decompressor -/
  dec : Call.Dec
  /-- `ibuffer[input_offset..input_end]` -/
  left : List UInt8
  /-- `input_end` -/
  last : Nat
  /-- `obuffer[..output_offset]` -/
  out : List UInt8
  /-- the source -/
  src : List Ev
  /-- the sink -/
  sink : List WEv
  /-- what the sink took -/
  written : List UInt8

/-- Writing the output buffer. -/
def Unpack.flushed (s : Unpack) : Unpack × Bool :=
  let x := drain s.sink s.out
  ({ s with sink := x.1, out := [], written := s.written ++ x.2.1 }, x.2.2)

/-- The loop of `decompress_generic`, with an input buffer of `cap` and an output buffer of `size` bytes, and at most
`n` steps inside a call of `decode`.  `none`: it does not end within that many rounds, or a call of `decode` does not end
within `n` steps.  `/repo/src/bin/divans.rs:1025-1105`. -/
def unpackLoop (dw : Nat → Nat → Nat → List UInt8) (n cap size : Nat) : Nat → Unpack → Option (Unpack × Outcome)
  | 0, _ => none
  | k + 1, s =>
    match s.dec.decode dw n s.left (size - s.out.length) with
    | none => none
    | some .panic => some (s, .crash)
    | some .fail => some (s, .codecErr)
    | some (.ok r) =>
      let s1 := { s with dec := r.dec, left := s.left.drop r.used, out := s.out ++ r.out }
      match r.ret with
      | .success => some (s1.flushed.1, if s1.flushed.2 then .ok else .ioErr)
      | .needsOutput => if s1.flushed.2 then unpackLoop dw n cap size k s1.flushed.1 else some (s1.flushed.1, .ioErr)
      | .needsInput =>
        let last := if s1.left = [] then 0 else s1.last
        match fill (cap - last) s1.src with
        | (src, .bytes bs) => unpackLoop dw n cap size k { s1 with left := s1.left ++ bs, last := last + bs.length, src := src }
        | (src, .ended) => some ({ s1 with src := src }, .noEnd)
        | (src, .failed) => some ({ s1 with src := src }, .ioErr)

/-- `decompress`: what the sink took and how it ended.  `extra` is what was read from the source already.
`/repo/src/bin/divans.rs:980-1023`. -/
def decompress (dw : Nat → Nat → Nat → List UInt8) (n rounds : Nat) (skip : Bool) (size : Nat) (extra : List UInt8)
    (src : List Ev) (sink : List WEv) : Option (List UInt8 × Outcome) :=
  (unpackLoop dw n (max (bufSize size) extra.length) (bufSize size) rounds
    ⟨.new skip, extra, extra.length, [], src, sink, []⟩).map fun x => (x.1.written, x.2)

/-! ## Compressing -/

/-- The trait `Compressor`, `/repo/src/interface.rs:292-306`, as far as it is used here: `encode` and `flush`, with at most so
many steps inside a call.  `none` is a panic. -/
structure Machine (κ : Type) where
  /-- `encode`: input, room -/
  encode : Nat → κ → List UInt8 → Nat → Option (κ × Nat × List UInt8 × Eng.Code)
  /-- `flush`: room -/
  flush : Nat → κ → Nat → Option (κ × List UInt8 × Eng.Code)

/-- The compressor with the internal choice of commands, `/repo/src/bin/divans.rs:925-942`. -/
def plain (o : Codec.Opts) (dw : Nat → Nat → Nat → List UInt8) : Machine Compressor.Comp :=
  ⟨fun n c => c.encode o dw n, fun n c => c.flush o dw n⟩

variable {κ : Type}

/-- `compress_raw_inner` between two rounds, `/repo/src/bin/divans.rs:719-723`. -/
structure Pack (κ : Type) where
  /-- the compressor -/
  comp : κ
  /-- whether `additional_input` is in use -/
  first : Bool
  /-- `additional_input`, or `ibuffer[..ilim]` -/
  buf : List UInt8
  /-- `idec_index` -/
  pos : Nat
  /-- `obuffer[oenc_index..olim]`, where `oenc_index` is 0 -/
  out : List UInt8
  /-- the source -/
  src : List Ev
  /-- the sink -/
  sink : List WEv
  /-- what the sink took -/
  written : List UInt8

/-- Writing the output buffer. -/
def Pack.flushed (s : Pack κ) : Pack κ × Bool :=
  let x := drain s.sink s.out
  ({ s with sink := x.1, out := [], written := s.written ++ x.2.1 }, x.2.2)

/-- The beginning of a round: from the additional input to the buffer, `/repo/src/bin/divans.rs:728-737`. -/
def Pack.turn (s : Pack κ) : Pack κ :=
  if s.first ∧ s.pos = s.buf.length then { s with first := false, buf := [], pos := 0 } else s

/-- What a round does before it calls the compressor. -/
inductive Begin (κ : Type) where
  /-- goes on to the compressor -/
  | go (s : Pack κ)
  /-- begins a new round (`continue`) -/
  | again (s : Pack κ)
  /-- ends the loop without an error -/
  | done (s : Pack κ)
  /-- an error of the source -/
  | ioErr (s : Pack κ)

/-- Reading, if everything in the buffer was taken, into a buffer of `size` bytes.  An interrupted read leaves
`idec_index` at 0 and `ilim` where it was.  `/repo/src/bin/divans.rs:738-755`. -/
def Pack.begin (size : Nat) (s : Pack κ) : Begin κ :=
  if s.pos = s.buf.length then
    match s.src with
    | [] => .done { s with pos := 0, buf := [] }
    | .data [] :: t => .done { s with pos := 0, buf := [], src := t }
    | .data (b :: bs) :: t =>
      .go { s with pos := 0, buf := (b :: bs).take size,
                   src := if size < (b :: bs).length then .data ((b :: bs).drop size) :: t else t }
    | .interrupted :: t => .again { s with pos := 0, src := t }
    | .fail :: t => .ioErr { s with pos := 0, src := t }
  else .go s

/-- The rest of a round: the compressor, if there is input, and the sink.  `none`: the loop goes on.  A failed `encode` may
have written something that is never given to the sink; this is not modelled.  `/repo/src/bin/divans.rs:756-783`. -/
def Pack.push (t : Machine κ) (n size : Nat) (s : Pack κ) : Pack κ × Option Outcome :=
  if s.pos = s.buf.length then (s.flushed.1, if s.flushed.2 then none else some .ioErr)
  else
    match t.encode n s.comp (s.buf.drop s.pos) (size - s.out.length) with
    | none => (s, some .crash)
    | some (c, used, out, code) =>
      let s1 := { s with comp := c, pos := s.pos + used, out := s.out ++ out }
      match code with
      | .failure => (s1, some .codecErr)
      | .success => (s1, none)
      | _ => (s1.flushed.1, if s1.flushed.2 then none else some .ioErr)

/-- The first loop of `compress_raw_inner`, with buffers of `size` bytes and at most `n` steps inside a call of `encode`.
The last component says how the loop ended: `none` if there is no more input.  `/repo/src/bin/divans.rs:726-784`. -/
def packLoop (t : Machine κ) (n size : Nat) : Nat → Pack κ → Option (Pack κ × Option Outcome)
  | 0, _ => none
  | k + 1, s =>
    match s.turn.begin size with
    | .again s' => packLoop t n size k s'
    | .done s' => some (s', none)
    | .ioErr s' => some (s', some .ioErr)
    | .go s' =>
      match s'.push t n size with
      | (s2, none) => packLoop t n size k s2
      | (s2, some e) => some (s2, some e)

/-- The second loop of `compress_raw_inner`.  `/repo/src/bin/divans.rs:791-822`. -/
def packEnd (t : Machine κ) (n size : Nat) : Nat → Pack κ → Option (Pack κ × Outcome)
  | 0, _ => none
  | k + 1, s =>
    match t.flush n s.comp (size - s.out.length) with
    | none => some (s, .crash)
    | some (c, out, code) =>
      let s1 := { s with comp := c, out := s.out ++ out }
      match code with
      | .failure => some (s1, .codecErr)
      | .success => some (s1.flushed.1, if s1.flushed.2 then .ok else .ioErr)
      | _ => if s1.flushed.2 then packEnd t n size k s1.flushed.1 else some (s1.flushed.1, .ioErr)

/-- `compress_raw_inner`: what the sink took and how it ended.  `/repo/src/bin/divans.rs:710-827`. -/
def compressInner (t : Machine κ) (n rounds : Nat) (c : κ) (size : Nat)
    (extra : List UInt8) (src : List Ev) (sink : List WEv) : Option (List UInt8 × Outcome) :=
  match packLoop t n size rounds ⟨c, decide (extra ≠ []), extra, 0, [], src, sink, []⟩ with
  | none => none
  | some (s, some e) => some (s.written, e)
  | some (s, none) => (packEnd t n size rounds s).map fun x => (x.1.written, x.2)

/-- The magic number, `/repo/src/interface.rs:164`; checked as in `is_divans`, `/repo/src/bin/divans.rs:75-85`. -/
def isDivans (header : List UInt8) : Bool := header.take 4 == [0xff, 0xe5, 0x8c, 0x9f]

/-- Reading up to 16 bytes to look for the magic number: the bytes, the source afterwards, and whether there was no
error.  `/repo/src/bin/divans.rs:860-883`. -/
def peek (got : List UInt8) : List Ev → List UInt8 × List Ev × Bool
  | [] => (got, [], true)
  | .interrupted :: t => peek got t
  | .fail :: t => (got, t, false)
  | .data [] :: t => (got, t, true)
  | .data (b :: bs) :: t =>
    if 16 - got.length ≤ (b :: bs).length then
      (got ++ (b :: bs).take (16 - got.length),
        if 16 - got.length < (b :: bs).length then .data ((b :: bs).drop (16 - got.length)) :: t else t, true)
    else peek (got ++ b :: bs) t

/-- `compress_raw`: compresses, unless the input begins with the magic number and compression is not forced; then it
decompresses.  `/repo/src/bin/divans.rs:852-944`. -/
def compressRaw (t : Machine κ) (dw : Nat → Nat → Nat → List UInt8) (n rounds : Nat) (c : κ) (size : Nat)
    (force : Bool) (src : List Ev) (sink : List WEv) : Option (List UInt8 × Outcome) :=
  if force then compressInner t n rounds c (bufSize size) [] src sink
  else
    match peek [] src with
    | (_, _, false) => some ([], .ioErr)
    | (got, src', true) =>
      if isDivans got then decompress dw n rounds false size got src' sink
      else compressInner t n rounds c (bufSize size) got src' sink

end Divans.Cli
