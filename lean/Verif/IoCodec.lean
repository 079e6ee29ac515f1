import Verif.Io
import Verif.Call
import Verif.Comp

/-!
# The adaptors with the codecs inside

`/repo/src/reader.rs` and `/repo/src/writer.rs` are generic in a `Processor`; here are the two processors of this
crate that are modelled: the decompressor and the compressor for raw bytes.
-/

namespace Divans.Io

/-- A codec inside an adaptor.  What it does after it reported a failure is not modelled: it goes on failing.
`crashed`: it panicked, or a call did not return within the bound on its steps. -/
inductive Slot (α : Type) where
  | live (a : α)
  | failed
  | crashed

/-- The result codes of the decompressor. -/
def ofRet : Call.Ret → Res
  | .needsInput => .needsInput
  | .needsOutput => .needsOutput
  | .success => .success

/-- `decode` as a processor: the codec, the number of bytes taken, the bytes written, the result.
`/repo/src/reader.rs:272-275`, `/repo/src/writer.rs:239-242`. -/
def decStep (dw : Nat → Nat → Nat → List UInt8) (fuel : Nat) (c : Slot Call.Dec) (inp : List UInt8) (room : Nat) :
    Slot Call.Dec × Nat × List UInt8 × Res :=
  match c with
  | .live d =>
    match d.decode dw fuel inp room with
    | some (.ok r) => (.live r.dec, r.used, r.out, ofRet r.ret)
    | some .fail => (.failed, 0, [], .failure)
    | _ => (.crashed, 0, [], .failure)
  | c => (c, 0, [], .failure)

/-- `close` of the decompressor: `decode` without input; a wish for input is `UnexpectedEof`.
`/repo/src/reader.rs:276-286`, `/repo/src/writer.rs:243-251`. -/
def decClose (dw : Nat → Nat → Nat → List UInt8) (fuel : Nat) (c : Slot Call.Dec) (room : Nat) :
    Slot Call.Dec × List UInt8 × Res :=
  let x := decStep dw fuel c [] room
  (x.1, x.2.2.1, if x.2.2.2 = .needsInput then .failure else x.2.2.2)

/-- The decompressor, `/repo/src/reader.rs:272-288`, `/repo/src/writer.rs:239-253`. -/
def decProc (dw : Nat → Nat → Nat → List UInt8) (fuel : Nat) : Proc (Slot Call.Dec) :=
  ⟨decStep dw fuel, decClose dw fuel⟩

/-- The result codes of the compressor. -/
def ofCode : Eng.Code → Res
  | .needsInput => .needsInput
  | .needsOutput => .needsOutput
  | .success => .success
  | .failure => .failure

/-- `encode` as a processor.  `/repo/src/reader.rs:162-164`, `/repo/src/writer.rs:122-124`. -/
def compStep (o : Codec.Opts) (dw : Nat → Nat → Nat → List UInt8) (fuel : Nat) (c : Slot Compressor.Comp)
    (inp : List UInt8) (room : Nat) : Slot Compressor.Comp × Nat × List UInt8 × Res :=
  match c with
  | .live d =>
    match d.encode o dw fuel inp room with
    | some (d', n, out, code) => (.live d', n, out, ofCode code)
    | none => (.crashed, 0, [], .failure)
  | c => (c, 0, [], .failure)

/-- `flush` as the processor's `close`.  `/repo/src/reader.rs:165-167`, `/repo/src/writer.rs:125-127`. -/
def compClose (o : Codec.Opts) (dw : Nat → Nat → Nat → List UInt8) (fuel : Nat) (c : Slot Compressor.Comp)
    (room : Nat) : Slot Compressor.Comp × List UInt8 × Res :=
  match c with
  | .live d =>
    match d.flush o dw fuel room with
    | some (d', out, code) => (.live d', out, ofCode code)
    | none => (.crashed, [], .failure)
  | c => (c, [], .failure)

/-- The compressor for raw bytes, `/repo/src/reader.rs:161-169, 228-259`, `/repo/src/writer.rs:121-129`. -/
def compProc (o : Codec.Opts) (dw : Nat → Nat → Nat → List UInt8) (fuel : Nat) : Proc (Slot Compressor.Comp) :=
  ⟨compStep o dw fuel, compClose o dw fuel⟩

/-! ## The constructors -/

/-- The size of the buffer, `/repo/src/reader.rs:296-298` and the like. -/
def bufSize (size : Nat) : Nat := if size = 0 then 4096 else size

/-- `DivansDecompressorReader::new`, `/repo/src/reader.rs:295-319`. -/
def decReader (skip : Bool) (size : Nat) (src : List Ev) : Reader (Slot Call.Dec) :=
  Reader.new (.live (.new skip)) (List.replicate (bufSize size) 0) false src

/-- `DivansDecompressorWriter::new`, `/repo/src/writer.rs:267-290`. -/
def decWriter (skip : Bool) (size : Nat) (sink : List Bool) : Writer (Slot Call.Dec) :=
  Writer.new (.live (.new skip)) (bufSize size) false sink

/-- `DivansExperimentalCompressorReader::new`, `/repo/src/reader.rs:239-259`. -/
def compReader (window : Option Int) (size : Nat) (src : List Ev) : Reader (Slot Compressor.Comp) :=
  Reader.new (.live (.new window)) (List.replicate (bufSize size) 0) true src

/-- `DivansExperimentalCompressorWriter::new`, `/repo/src/writer.rs:199-220`. -/
def compWriter (window : Option Int) (size : Nat) (sink : List Bool) : Writer (Slot Compressor.Comp) :=
  Writer.new (.live (.new window)) (bufSize size) true sink

end Divans.Io
