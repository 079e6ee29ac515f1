import Verif.Pipe

/-!
# How the decompressor reads the bytes of a literal

`encode_or_decode_content_bytes` and `code_nibble_array` of `/repo/src/codec/literal.rs`, with
`Specialization` = `DecoderSpecialization`.  There are two paths.  The careful one looks after each half
byte whether the entropy decoder is short of input, and stops there.  The fast one is taken while at least
16 bytes are ready; it does not look (only a `debug_assert!` does) and leaves after the first byte with
less than 16 bytes ready.
-/

namespace Divans.Fast
open Divans.Adaptive Divans.Lit

/-- The literal that is being read: stream with models and entropy decoder, bookkeeping, bytes so far. -/
structure Job where
  rx : Rx Key Bool
  lbk : Lbk
  con : Content

/-- `drain_or_fill_static_buffer` of the decompressor; also returns whether the decoder has what it needs.
`/repo/src/codec/interface.rs:897-915`, `/repo/src/arithmetic_coder.rs:185-200`. -/
def Job.fill (j : Job) : Job × Bool :=
  if j.rx.dec.numPushAvail = 0 then (j, true)
  else
    let p := j.rx.dec.pushData j.rx.buf
    ({ j with rx := ⟨j.rx.ses, p.1, j.rx.buf.drop p.2⟩ }, decide (p.1.numPushAvail = 0))

/-- The next half byte, from whatever is in the entropy decoder.  `none`: an index out of range.
`code_nibble`, `/repo/src/codec/literal.rs:153-259` with lines 303-319 and 340-361. -/
def Job.nibble (j : Job) : Option Job :=
  match j.con.ask j.lbk with
  | none => none
  | some ch =>
    let x := (j.rx.ses.coding ch).lookup j.rx.dec.offset
    some ⟨⟨j.rx.ses.after ch x.1, j.rx.dec.advance x.2.toSlot, j.rx.buf⟩,
      (j.con.take j.lbk x.1).1, (j.con.take j.lbk x.1).2⟩

/-- `LiteralSubstate` from the first byte on: the fast path, the careful path before a byte, the careful
path inside a byte, finished.  `/repo/src/codec/literal.rs:29-41`. -/
inductive Sub where
  | safe
  | low
  | second
  | full
  deriving DecidableEq, Repr

/-- `state_literal_nibble_index`, `/repo/src/codec/literal.rs:730-736`. -/
def subOf (ready : Nat) : Sub := if 16 ≤ ready then .safe else .low

/-- What a call reports. -/
inductive Ret where
  | success
  | needsInput
  deriving DecidableEq, Repr

/-- Second half of the loop body of `code_nibble_array`: the low half byte.  `k` is the rest of the loop;
`warn` is `low_buffer_warning`; `strict` stands for a build with debug assertions, `none` for a panic.
`/repo/src/codec/literal.rs:340-391`. -/
def lowHalf (strict safe warn : Bool) (j : Job) (k : Job → Option (Job × Ret × Sub)) :
    Option (Job × Ret × Sub) :=
  match j.nibble with
  | none => none
  | some j1 =>
    if safe && warn then
      some (j1, if j1.con.left = 0 then .success else .needsInput, subOf j1.rx.buf.length)
    else if safe then (if strict && !j1.fill.2 then none else k j1.fill.1)
    else if j1.fill.2 then k j1.fill.1
    else some (j1.fill.1, if j1.con.left = 0 then .success else .needsInput, subOf j1.fill.1.rx.buf.length)

/-- `code_nibble_array` for the bytes left; `safe` is `FULLY_SAFE`.  A byte whose high half is known comes
only first, with `SECOND_HALF`.  At the end of the loop the caller sets the state.
`/repo/src/codec/literal.rs:261-394, 737-742`. -/
def array (strict safe : Bool) : Nat → Job → Option (Job × Ret × Sub)
  | 0, j => some (j, .success, .full)
  | n + 1, j =>
    match j.con.high with
    | some _ => lowHalf strict safe false j (array strict safe n)
    | none =>
      match j.nibble with
      | none => none
      | some j1 =>
        if safe then
          (if strict && !j1.fill.2 then none
           else lowHalf strict safe (decide (j1.fill.1.rx.buf.length < 16)) j1.fill.1 (array strict safe n))
        else if j1.fill.2 then
          lowHalf strict safe (decide (j1.fill.1.rx.buf.length < 16)) j1.fill.1 (array strict safe n)
        else some (j1.fill.1, .needsInput, .second)

/-- `encode_or_decode_content_bytes`, `/repo/src/codec/literal.rs:404-494`.  The number bounds the rounds of
its loop. -/
def content (strict : Bool) : Nat → Sub → Job → Option (Job × Ret × Sub)
  | 0, _, _ => none
  | k + 1, s, j =>
    if j.fill.2 then
      match s with
      | .full => none
      | .safe =>
        match array strict true j.fill.1.con.left j.fill.1 with
        | none => none
        | some (j', .success, _) => some (j', .success, .full)
        | some (j', .needsInput, s') => content strict k s' j'
      | _ =>
        match array strict false j.fill.1.con.left j.fill.1 with
        | none => none
        | some (j', .success, _) => some (j', .success, .full)
        | some (j', .needsInput, s') => some (j', .needsInput, s')
    else some (j.fill.1, .needsInput, s)

/-! ## The decompressor with this code -/

/-- The decompressor of `Verif.Pipe`, and the state of the literal in progress. -/
structure Real where
  rcv : Pipe.Rcv
  sub : Sub

/-- A fresh decompressor; the literal state is `FullyDecoded`. -/
def Real.init (L : Nat) : Real := ⟨.init L, .full⟩

/-- One step of the main side as in `Pipe.Rcv.main`, except that the bytes of a literal are read by
`content`, and that a literal begins on the fast path if enough bytes are ready.
`/repo/src/codec/decoder.rs:231-419`, in particular lines 236-276 and 381-398. -/
def Real.main (strict : Bool) (dw : Nat → Nat → Nat → List UInt8) (r : Real) (room : Nat) :
    Codec.Res (Real × List UInt8) :=
  match r.rcv.at_ with
  | .content c =>
    match content strict 2 r.sub ⟨r.rcv.litRx, r.rcv.lbk, c⟩ with
    | none => .panic
    | some (j, .success, s) =>
      .ok (⟨{ r.rcv with litRx := j.rx, lbk := j.lbk, at_ := .filling (.lit j.con.done.reverse) }, s⟩, [])
    | some (j, .needsInput, s) =>
      .ok (⟨{ r.rcv with litRx := j.rx, lbk := j.lbk, at_ := .content j.con }, s⟩, [])
  | _ =>
    (r.rcv.main dw room).bind fun x =>
      .ok (⟨x.1, match x.1.at_ with
        | .content _ => subOf x.1.litRx.buf.length
        | _ => r.sub⟩, x.2)

/-- One step of the system, with the bytes given out; arrivals and worker steps as in `Pipe.Rcv.act`. -/
def Real.act (strict : Bool) (dw : Nat → Nat → Nat → List UInt8) (r : Real) :
    Pipe.Act → Codec.Res (Real × List UInt8)
  | .main room => r.main strict dw room
  | a => (r.rcv.act dw a).bind fun x => .ok (⟨x.1, r.sub⟩, x.2)

/-- A run: the final state and all bytes given out. -/
def run (strict : Bool) (dw : Nat → Nat → Nat → List UInt8) : Real → List Pipe.Act → Codec.Res (Real × List UInt8)
  | r, [] => .ok (r, [])
  | r, a :: as =>
    (r.act strict dw a).bind fun x => (run strict dw x.1 as).bind fun y => .ok (y.1, x.2 ++ y.2)

end Divans.Fast
