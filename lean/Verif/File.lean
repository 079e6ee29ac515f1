import Verif.Frame
import Verif.Pipe

/-!
# The decompressor from file bytes to data

Header parser, demultiplexer, trailer and the two decoders of `Verif.Pipe`, driven by a caller that
offers the bytes of a file piece by piece and takes the output in buffers of any size.
-/

namespace Divans.File

/-- Behind the header: the demultiplexer, the running checksum, the bytes of the trailer read so far,
and the two decoders.  `/repo/src/codec/decoder.rs:37-62`. -/
structure Body where
  mux : Mux.Mux
  crc : Nat
  sum : List UInt8
  rcv : Pipe.Rcv

/-- `DivansDecompressor`, `/repo/src/divans_decompressor.rs:191-204`: collecting the header or decoding
behind it. -/
inductive Stage where
  | header (got : List UInt8)
  | body (b : Body)

/-- A decompressor with its caller: whether checksums are skipped, the stage, and the bytes offered
by the caller but not accepted. -/
structure Dec where
  skip : Bool
  stage : Stage
  pending : List UInt8

/-- A new decompressor. -/
def Dec.new (skip : Bool) : Dec := ⟨skip, .header [], []⟩

/-- Input behind the header: offer it to the demultiplexer once, hash what it accepts, and after the
end marker collect the trailer.  Returns the bytes not accepted; `none` is a panic of the demultiplexer.
`/repo/src/codec/decoder.rs:121-143`. -/
def Body.input (skip : Bool) (b : Body) (pending : List UInt8) : Option (Body × List UInt8) :=
  match Mux.deserialize b.mux pending with
  | none => none
  | some (m, n) =>
    let crc := if skip then b.crc else Crc.update b.crc (pending.take n)
    let rest := pending.drop n
    if m.sawEof ∧ b.sum.length ≠ 8 then
      let k := min rest.length (8 - b.sum.length)
      some ({ b with mux := m, crc := crc, sum := b.sum ++ rest.take k }, rest.drop k)
    else some ({ b with mux := m, crc := crc }, rest)

/-- All input pending is offered.  `/repo/src/divans_decompressor.rs:53-81, 212-268, 354-397`,
`/repo/src/codec/decoder.rs:121-143`.  A failure of the header parser ends the run. -/
def Dec.input (d : Dec) : Codec.Res Dec :=
  match d.stage with
  | .header got =>
    match Frame.headerDecode got d.pending with
    | .more got' => .ok { d with stage := .header got', pending := [] }
    | .fail _ => .fail
    | .ready h w used =>
      .ok { d with
        stage := .body
          { mux := Mux.Mux.new
            crc := if d.skip then Crc.init else Crc.update Crc.init h
            sum := []
            rcv := Pipe.Rcv.init (2 ^ w) }
        pending := d.pending.drop used }
  | .body b =>
    match b.input d.skip d.pending with
    | none => .panic
    | some (b', rest) => .ok { d with stage := .body b', pending := rest }

/-- The demultiplexed bytes of the command stream are handed to the worker, buffer and all, if there
are any.  `/repo/src/codec/decoder.rs:144-156`, `/repo/src/threading.rs:235-242`. -/
def Body.hand (b : Body) : Body :=
  if b.mux.unread false = [] then b
  else
    { b with
      mux := (b.mux.takeBuf false).1
      rcv := { b.rcv with cmdRx := b.rcv.cmdRx.push (b.mux.takeBuf false).2.unread } }

/-- One step of the main side: its literal decoder reads from the demultiplexer's second stream.
`/repo/src/codec/decoder.rs:214-419`, `/repo/src/codec/io.rs:51-80`. -/
def Body.main (dw : Nat → Nat → Nat → List UInt8) (b : Body) (room : Nat) :
    Codec.Res (Body × List UInt8) :=
  let avail := b.mux.unread true
  ({ b.rcv with litRx := { b.rcv.litRx with buf := avail } }.main dw room).bind fun x =>
    .ok ({ b with mux := b.mux.consume true (avail.length - x.1.litRx.buf.length), rcv := x.1 }, x.2)

/-- What can happen next: the caller has more bytes, the decompressor looks at its input, hands
command bytes to the worker, gives a used allocation back to the demultiplexer, the worker makes a
step, the main side makes a step with `room` bytes of output. -/
inductive Act where
  | more (piece : List UInt8)
  | input
  | hand
  | recycle (mem : List UInt8)
  | worker
  | main (room : Nat)
  deriving DecidableEq, Repr

/-- One step, with the bytes given out. -/
def Dec.act (dw : Nat → Nat → Nat → List UInt8) (d : Dec) : Act → Codec.Res (Dec × List UInt8)
  | .more piece => .ok ({ d with pending := d.pending ++ piece }, [])
  | .input => d.input.bind fun d' => .ok (d', [])
  | .hand =>
    match d.stage with
    | .header _ => .ok (d, [])
    | .body b => .ok ({ d with stage := .body b.hand }, [])
  | .recycle mem =>
    match d.stage with
    | .header _ => .ok (d, [])
    | .body b => .ok ({ d with stage := .body { b with mux := b.mux.recycle false mem } }, [])
  | .worker =>
    match d.stage with
    | .header _ => .ok (d, [])
    | .body b => b.rcv.worker.bind fun r => .ok ({ d with stage := .body { b with rcv := r } }, [])
  | .main room =>
    match d.stage with
    | .header _ => .ok (d, [])
    | .body b => (b.main dw room).bind fun x => .ok ({ d with stage := .body x.1 }, x.2)

/-- A run: the final state and all bytes given out. -/
def run (dw : Nat → Nat → Nat → List UInt8) : Dec → List Act → Codec.Res (Dec × List UInt8)
  | d, [] => .ok (d, [])
  | d, a :: as => (d.act dw a).bind fun x => (run dw x.1 as).bind fun y => .ok (y.1, x.2 ++ y.2)

/-- All bytes the caller offers in a schedule. -/
def fed : List Act → List UInt8
  | [] => []
  | .more piece :: as => piece ++ fed as
  | _ :: as => fed as

/-- What the decompressor reports. -/
inductive Verdict where
  | running
  | needInput
  | success
  | failure
  deriving DecidableEq, Repr

/-- Does the trailer agree?  Only the last four bytes are compared when checksums are skipped.
`/repo/src/codec/decoder.rs:195-211`. -/
def sumOk (skip : Bool) (crc : Nat) (sum : List UInt8) : Bool :=
  ((Frame.trailer crc).zip sum).zipIdx.all fun x =>
    decide (x.1.1 = x.1.2) || !(decide (x.2 ≥ 4) || !skip)

/-- The report at the end: `process_eof`, once the end of the command stream was seen and everything
was given out.  `/repo/src/codec/decoder.rs:186-213`. -/
def Dec.verdict (d : Dec) : Verdict :=
  match d.stage with
  | .header _ => .running
  | .body b =>
    if b.rcv.at_ ≠ .finished then .running
    else if b.sum.length ≠ 8 then .needInput
    else if sumOk d.skip b.crc b.sum then .success else .failure

end Divans.File
