import Verif.ParAnyProps
import Verif.IoFullProps
import Verif.IoAnyProps
import Verif.CliProps
import Verif.FfiProps

/-!
# The adaptors, the program and the C interface around any decompressor

`reader.rs`, `writer.rs`, `bin/divans.rs` and `ffi/mod.rs` take a decompressor with a worker thread or without one
(their parameter `multithread`).  `Verif.Io`, `Verif.Cli` and `Verif.Ffi` have the one without; here is what
these do with any decompressor, and the decompressor with a thread as one of them.
-/

namespace Divans.Par
open Divans.Io (Slot Proc Ev Reader Writer Contract WContract srcBytes bufSize ofRet)
open Divans.Call (Ret)

/-! ## A scheduler -/

/-- A scheduler chooses at each moment, with everything in view, which thread goes next: the main thread (`true`) or the
worker's. -/
abbrev Sched := Nat → Conf → Bool

/-- A step of one of the threads; `none`: it waits. -/
def Conf.turn (dw : Nat → Nat → Nat → List UInt8) (skip : Bool) (main : Bool) (c : Conf) :
    Codec.Res (Option (Conf × Option Ret)) :=
  if main then c.tick dw skip
  else c.p.work.bind fun x => .ok (x.map fun p => ({ c with p := p }, none))

/-- A step of the thread chosen; of the other one if the one chosen waits. -/
def Conf.go (dw : Nat → Nat → Nat → List UInt8) (skip : Bool) (main : Bool) (c : Conf) :
    Codec.Res (Option (Conf × Option Ret)) :=
  match c.turn dw skip main with
  | .ok none => c.turn dw skip (!main)
  | x => x

/-- A call in progress, with this scheduler from this moment on, for at most so many steps: the end of it, the
value returned and the moment.  `none`: it goes on longer, or both threads wait.  (A failure or a panic of the worker's
thread is taken for one of the call.) -/
def play (sched : Sched) (dw : Nat → Nat → Nat → List UInt8) (skip : Bool) : Nat → Nat → Conf → Option (Codec.Res (Conf × Ret × Nat))
  | 0, _, _ => none
  | n + 1, t, c =>
    match c.go dw skip (sched t c) with
    | .fail => some .fail
    | .panic => some .panic
    | .ok none => none
    | .ok (some (c', some r)) => some (.ok (c', r, t + 1))
    | .ok (some (c', none)) => play sched dw skip n (t + 1) c'

/-! ## Decompressors -/

/-- The trait `Decompressor`, `/repo/src/interface.rs:308-314`: `decode`, with at most so many steps inside a call, gives
the decompressor, the number of bytes taken, the bytes given out and the value returned. -/
abbrev Decoder (δ : Type) := Nat → δ → List UInt8 → Nat → Option (Codec.Res (δ × Nat × List UInt8 × Ret))

/-- The decompressor without a thread. -/
def serial (dw : Nat → Nat → Nat → List UInt8) : Decoder Call.Dec := fun n d inp room =>
  (d.decode dw n inp room).map fun x => x.bind fun r => .ok (r.dec, r.used, r.out, r.ret)

/-- The decompressor with a thread, under a scheduler: with the decompressor goes the moment. -/
def threaded (sched : Sched) (dw : Nat → Nat → Nat → List UInt8) : Decoder (Dec × Nat) := fun n x inp room =>
  match x.1.begin inp room with
  | .fail => some .fail
  | .panic => some .panic
  | .ok (.inl r) => some (.ok ((r.dec, x.2), r.used, r.out, r.ret))
  | .ok (.inr (c, before)) =>
    (play sched dw x.1.skip n x.2 c).map fun y => y.bind fun z =>
      let r := z.1.reply x.1.skip c.pend before z.2.1
      .ok ((r.dec, z.2.2), r.used, r.out, r.ret)

/-! ## In a reader and in a writer -/

variable {δ : Type}

/-- `decode` as a processor, as `Io.decStep`.  `/repo/src/reader.rs:272-275`, `/repo/src/writer.rs:239-242`. -/
def stepOf (D : Decoder δ) (fuel : Nat) (c : Slot δ) (inp : List UInt8) (room : Nat) : Slot δ × Nat × List UInt8 × Io.Res :=
  match c with
  | .live d =>
    match D fuel d inp room with
    | some (.ok (d', used, out, ret)) => (.live d', used, out, ofRet ret)
    | some .fail => (.failed, 0, [], .failure)
    | _ => (.crashed, 0, [], .failure)
  | c => (c, 0, [], .failure)

/-- `close` of a decompressor, as `Io.decClose`.  `/repo/src/reader.rs:276-286`, `/repo/src/writer.rs:243-251`. -/
def closeOf (D : Decoder δ) (fuel : Nat) (c : Slot δ) (room : Nat) : Slot δ × List UInt8 × Io.Res :=
  let x := stepOf D fuel c [] room
  (x.1, x.2.2.1, if x.2.2.2 = .needsInput then .failure else x.2.2.2)

/-- The decompressor as a processor.  `/repo/src/reader.rs:272-288`, `/repo/src/writer.rs:239-253`. -/
def procOf (D : Decoder δ) (fuel : Nat) : Proc (Slot δ) := ⟨stepOf D fuel, closeOf D fuel⟩

/-- `DivansDecompressorReader::new`, `/repo/src/reader.rs:299-322`. -/
def readerOf (d : δ) (size : Nat) (src : List Ev) : Reader (Slot δ) :=
  Reader.new (.live d) (List.replicate (bufSize size) 0) false src

/-- `DivansDecompressorWriter::new`, `/repo/src/writer.rs:267-290`. -/
def writerOf (d : δ) (size : Nat) (sink : List Bool) : Writer (Slot δ) :=
  Writer.new (.live d) (bufSize size) false sink

/-! ## In the command line program -/

/-- `decompress_generic` between two calls of the decompressor, as `Cli.Unpack`, `/repo/src/bin/divans.rs:1015-1023`. -/
structure Unpack (δ : Type) where
  /-- the decompressor -/
  dec : δ
  /-- `ibuffer[input_offset..input_end]` -/
  left : List UInt8
  /-- `input_end` -/
  last : Nat
  /-- `obuffer[..output_offset]` -/
  out : List UInt8
  /-- the source -/
  src : List Ev
  /-- the sink -/
  sink : List Cli.WEv
  /-- what the sink took -/
  written : List UInt8

/-- Writing the output buffer. -/
def Unpack.flushed (s : Unpack δ) : Unpack δ × Bool :=
  let x := Cli.drain s.sink s.out
  ({ s with sink := x.1, out := [], written := s.written ++ x.2.1 }, x.2.2)

/-- The loop of `decompress_generic`, as `Cli.unpackLoop`.  `/repo/src/bin/divans.rs:1025-1105`. -/
def unpackLoop (D : Decoder δ) (n cap size : Nat) : Nat → Unpack δ → Option (Unpack δ × Cli.Outcome)
  | 0, _ => none
  | k + 1, s =>
    match D n s.dec s.left (size - s.out.length) with
    | none => none
    | some .panic => some (s, .crash)
    | some .fail => some (s, .codecErr)
    | some (.ok (dec, used, out, ret)) =>
      let s1 : Unpack δ := { s with dec := dec, left := s.left.drop used, out := s.out ++ out }
      match ret with
      | .success => some (s1.flushed.1, if s1.flushed.2 then .ok else .ioErr)
      | .needsOutput => if s1.flushed.2 then unpackLoop D n cap size k s1.flushed.1 else some (s1.flushed.1, .ioErr)
      | .needsInput =>
        let last := if s1.left = [] then 0 else s1.last
        match Cli.fill (cap - last) s1.src with
        | (src, .bytes bs) => unpackLoop D n cap size k { s1 with left := s1.left ++ bs, last := last + bs.length, src := src }
        | (src, .ended) => some ({ s1 with src := src }, .noEnd)
        | (src, .failed) => some ({ s1 with src := src }, .ioErr)

/-- `decompress` with a new decompressor `d`, as `Cli.decompress`.  `/repo/src/bin/divans.rs:980-1023`. -/
def decompress (D : Decoder δ) (d : δ) (n rounds : Nat) (size : Nat) (extra : List UInt8) (src : List Ev) (sink : List Cli.WEv) :
    Option (List UInt8 × Cli.Outcome) :=
  (unpackLoop D n (max (bufSize size) extra.length) (bufSize size) rounds
    ⟨d, extra, extra.length, [], src, sink, []⟩).map fun x => (x.1.written, x.2)

/-! ## In the C interface -/

/-- A decompressor behind its pointer, as `Ffi.DState`. -/
inductive DState (δ : Type) where
  | live (d : δ)
  | failed

/-- `divans_decode`, as `Ffi.cDecode`.  `/repo/src/ffi/mod.rs:232-260`. -/
def cDecode (D : Decoder δ) (fuel : Nat) (st : Option (DState δ)) (inp : List UInt8) (inOff : Option Nat) (buf : List UInt8)
    (outOff : Option Nat) : Option (Ffi.After (DState δ)) :=
  match inOff, outOff, st with
  | some i, some p, some (.live d) =>
    if i ≤ inp.length ∧ p ≤ buf.length then
      match D fuel d (inp.drop i) (buf.length - p) with
      | none => none
      | some .panic => none
      | some .fail => some ⟨some .failed, some i, buf, some p, 3⟩
      | some (.ok (d', used, out, ret)) =>
        some ⟨some (.live d'), some (i + used), Ffi.stored buf p out, some (p + out.length), Ffi.dret ret⟩
    else none
  | _, _, _ => some ⟨st, inOff, buf, outOff, 3⟩

/-- The loop of `decompress` of the example program, as `Ffi.decodeLoop`.  `/repo/c/example.c:69-85`. -/
def decodeLoop (D : Decoder δ) (fuel : Nat) : Nat → List UInt8 → DState δ → List UInt8 → Option (List UInt8 × Nat)
  | 0, _, _, _ => none
  | k + 1, buf, s, data =>
    match cDecode D fuel (some s) data (some 0) buf (some 0) with
    | some ⟨some s', some i, buf', some p, code⟩ =>
      if code = 3 ∨ code = 1 ∧ data = [] then some ([], code)
      else if code = 0 then some (buf'.take p, 0)
      else (decodeLoop D fuel k buf' s' (data.drop i)).map fun z => (buf'.take p ++ z.1, z.2)
    | _ => none

/-! ## Without a thread these are the models of `Verif.Io`, `Verif.Cli` and `Verif.Ffi` -/

theorem serial_proc (dw : Nat → Nat → Nat → List UInt8) (fuel : Nat) : procOf (serial dw) fuel = Io.decProc dw fuel := by
  have h : stepOf (serial dw) fuel = Io.decStep dw fuel := by
    funext c inp room
    cases c with
    | failed => rfl
    | crashed => rfl
    | live d =>
      simp only [stepOf, serial, Io.decStep]
      rcases d.decode dw fuel inp room with _ | _ | _ | r <;> rfl
  have h' : closeOf (serial dw) fuel = Io.decClose dw fuel := by
    funext c room
    simp only [closeOf, Io.decClose, h]
  simp only [procOf, Io.decProc, h, h']

/-- The states of the two loops. -/
def unpackOf (s : Cli.Unpack) : Unpack Call.Dec := ⟨s.dec, s.left, s.last, s.out, s.src, s.sink, s.written⟩

theorem serial_unpack (dw : Nat → Nat → Nat → List UInt8) (n cap size : Nat) : ∀ (k : Nat) (s : Cli.Unpack),
    unpackLoop (serial dw) n cap size k (unpackOf s) = (Cli.unpackLoop dw n cap size k s).map fun x => (unpackOf x.1, x.2) := by
  intro k
  induction k with
  | zero => intro s; rfl
  | succ k ih =>
    intro s
    obtain ⟨dec0, left, last, out0, src0, sink, written⟩ := s
    show unpackLoop (serial dw) n cap size (k + 1) ⟨dec0, left, last, out0, src0, sink, written⟩ = _
    rw [unpackLoop, Cli.unpackLoop]
    simp only [serial]
    rcases dec0.decode dw n left (size - out0.length) with _ | r | _ | _
    · rfl
    · simp only [Option.map_some, Codec.Res.bind]
      rcases r with ⟨dec, used, out, ret⟩
      cases ret with
      | success => rfl
      | needsOutput =>
        simp only [Unpack.flushed, Cli.Unpack.flushed]
        by_cases hd : (Cli.drain sink (out0 ++ out)).2.2 = true
        · simp only [hd, if_true]; exact ih ⟨_, _, _, _, _, _, _⟩
        · simp only [hd]; rfl
      | needsInput =>
        simp only
        cases hf : Cli.fill (cap - if left.drop used = [] then 0 else last) src0 with
        | mk src f =>
          cases f with
          | bytes bs => exact ih ⟨_, _, _, _, _, _, _⟩
          | ended => rfl
          | failed => rfl
    · rfl
    · rfl

theorem serial_decompress (dw : Nat → Nat → Nat → List UInt8) (n rounds : Nat) (skip : Bool) (size : Nat) (extra : List UInt8)
    (src : List Ev) (sink : List Cli.WEv) :
    decompress (serial dw) (.new skip) n rounds size extra src sink = Cli.decompress dw n rounds skip size extra src sink := by
  unfold decompress Cli.decompress
  have := serial_unpack dw n (max (bufSize size) extra.length) (bufSize size) rounds ⟨.new skip, extra, extra.length, [], src, sink, []⟩
  rw [show unpackOf ⟨.new skip, extra, extra.length, [], src, sink, []⟩ = ⟨.new skip, extra, extra.length, [], src, sink, []⟩ from rfl] at this
  rw [this, Option.map_map]
  rfl

/-- The decompressors behind the two pointers. -/
def dstateOf : Ffi.DState → DState Call.Dec
  | .live d => .live d
  | .failed => .failed

theorem serial_cDecode (dw : Nat → Nat → Nat → List UInt8) (fuel : Nat) (st : Option Ffi.DState) (inp : List UInt8) (inOff : Option Nat)
    (buf : List UInt8) (outOff : Option Nat) :
    cDecode (serial dw) fuel (st.map dstateOf) inp inOff buf outOff =
      (Ffi.cDecode dw fuel st inp inOff buf outOff).map fun x => ⟨x.state.map dstateOf, x.inOff, x.buf, x.outOff, x.code⟩ := by
  rcases inOff with _ | i <;> rcases outOff with _ | p <;> rcases st with _ | d | _ <;> try rfl
  simp only [cDecode, Ffi.cDecode, Option.map_some, dstateOf]
  by_cases h : i ≤ inp.length ∧ p ≤ buf.length
  · rw [if_pos h, if_pos h]
    simp only [serial]
    rcases d.decode dw fuel (inp.drop i) (buf.length - p) with _ | r | _ | _ <;> rfl
  · rw [if_neg h, if_neg h]; rfl

end Divans.Par
