/-
Model of the ANS entropy coder, /repo/src/ans.rs.

Machine words (`u64`, `u16`, `u8` counters) are `Nat`; every place where the Rust code could wrap is
written with an explicit `% 2^64`.  Bytes are `UInt8`.  The encoder's byte stack is a `List UInt8`
with the top of the stack first; running out of stack space (`assert!(self.nbytes > 0)`) is `none`.
-/
namespace Divans.Ans

/-- `MAX_BUFFER_SIZE`, /repo/src/ans.rs:57. -/
def maxBufferSize : Nat := 256 * 1024

/-- `NORMALIZATION_INTERVAL`, `ENC_START_STATE`, /repo/src/ans.rs:135-136. -/
def normInterval : Nat := 2 ^ 31

/-- `LOG2_SCALE` = 15, /repo/src/probability/interface.rs (`LOG2_SCALE`). -/
def log2Scale : Nat := 15

/-- `NUM_SYMBOLS_BEFORE_FLUSH` = MAX_BUFFER_SIZE >> 2, /repo/src/ans.rs:138. -/
def symbolsPerChunk : Nat := maxBufferSize >>> 2

/-- The slot of a symbol: `ProbRange {start, freq}` as passed to `put_start_freq`
(/repo/src/ans.rs:289). -/
structure Slot where
  start : Nat
  freq : Nat
deriving DecidableEq, Repr

/-- The little-endian bytes of `s`, `n` of them: the arrays `state_lower` (n = 4,
/repo/src/ans.rs:313-318) and each half of `state_ab` (n = 8, /repo/src/ans.rs:357-374). -/
def leBytes : Nat → Nat → List UInt8
  | 0, _ => []
  | n + 1, s => UInt8.ofNat (s &&& 0xff) :: leBytes n (s >>> 8)

/-- `ByteStack::stack_data`, /repo/src/ans.rs:94-103: pushes the bytes so that `src[0]` ends on top;
`none` models the failing `assert!(self.nbytes > 0)` when the stack is full. -/
def stackData (q : List UInt8) (src : List UInt8) : Option (List UInt8) :=
  if q.length + src.length ≤ maxBufferSize then some (src ++ q) else none

/-- `ANSEncoder::reverse_put_sym`, /repo/src/ans.rs:302-329. State: `(state_a, state_b, q)`. `none` also models the
division by zero when the frequency is zero. -/
def reversePutSym (st : Nat × Nat × List UInt8) (sl : Slot) : Option (Nat × Nat × List UInt8) :=
  let (a, b, q) := st
  let rescaleLim := (((normInterval >>> log2Scale) <<< 32) * sl.freq) % 2 ^ 64
  if sl.freq = 0 then none
  else if a ≥ rescaleLim then
    (stackData q (leBytes 4 a)).map fun q' =>
      let s := a >>> 32
      (b, (((s / sl.freq) <<< log2Scale) + s % sl.freq + sl.start) % 2 ^ 64, q')
  else
    some (b, (((a / sl.freq) <<< log2Scale) + a % sl.freq + sl.start) % 2 ^ 64, q)

/-- The loop of `flush_chunk` over the symbols, newest first (/repo/src/ans.rs:342-353). -/
def reversePutAll : Nat × Nat × List UInt8 → List Slot → Option (Nat × Nat × List UInt8)
  | st, [] => some st
  | st, sl :: sls => (reversePutSym st sl).bind fun st' => reversePutAll st' sls

/-- `ANSEncoder` (/repo/src/ans.rs:254-257).  `q` is the output stack.  `startFreq` is the stack of
pending symbols, newest first.  Simplification: the Rust code stores each pending symbol as four
bytes (two `u16`, /repo/src/ans.rs:294-295, 347-348); here it is the pair itself. -/
structure Enc where
  q : List UInt8
  startFreq : List Slot

/-- `ANSEncoder::new`, /repo/src/ans.rs:259-264. -/
def Enc.init : Enc := ⟨[], []⟩

/-- `ANSEncoder::flush_chunk`, /repo/src/ans.rs:331-378. After the swap `state_a` is the state that
was written last. -/
def Enc.flushChunk (e : Enc) : Option Enc :=
  if e.startFreq = [] then some e
  else
    (reversePutAll (normInterval, normInterval, e.q) e.startFreq).bind fun (a, b, q) =>
      (stackData q (leBytes 8 b ++ leBytes 8 a)).map fun q' => ⟨q', []⟩

/-- `ANSEncoder::put_start_freq`, /repo/src/ans.rs:289-301. -/
def Enc.put (e : Enc) (sl : Slot) : Option Enc :=
  let e' : Enc := ⟨e.q, sl :: e.startFreq⟩
  if e'.startFreq.length = symbolsPerChunk then e'.flushChunk else some e'

/-- `ByteStack::pop_data` with an output buffer of `n` bytes, /repo/src/ans.rs:121-129. -/
def Enc.pop (e : Enc) (n : Nat) : List UInt8 × Enc :=
  (e.q.take n, ⟨e.q.drop n, e.startFreq⟩)

/-- What a user of the encoder can do: code a symbol, take up to `n` output bytes
(`drain_or_fill_internal_buffer`, /repo/src/arithmetic_coder.rs:229-240), or `close`
(/repo/src/arithmetic_coder.rs:251-254, /repo/src/ans.rs:402-404). -/
inductive EncOp where
  | put (sl : Slot)
  | pop (n : Nat)
  | close

/-- Runs a sequence of encoder operations; returns the bytes handed out and the final encoder.
`none` if the byte stack overflows or a symbol is put or the coder closed while output is still
pending (`debug_assert!(self.q.is_empty())`, /repo/src/ans.rs:292). -/
def Enc.run : Enc → List EncOp → Option (List UInt8 × Enc)
  | e, [] => some ([], e)
  | e, .put sl :: ops =>
    if e.q = [] then (e.put sl).bind fun e' => e'.run ops else none
  | e, .pop n :: ops =>
    ((e.pop n).2.run ops).map fun (out, e') => ((e.pop n).1 ++ out, e')
  | e, .close :: ops =>
    if e.q = [] then e.flushChunk.bind fun e' => e'.run ops else none

/-- `ANSDecoder`, /repo/src/ans.rs:142-148. -/
structure Dec where
  a : Nat
  b : Nat
  symCount : Nat
  reqA : Nat
  reqB : Nat
deriving DecidableEq, Repr

/-- `ANSDecoder::default`, /repo/src/ans.rs:150-162. -/
def Dec.init : Dec := ⟨0, 0, 0, 8, 0⟩

/-- `acc |= u64::from(data[i]) << (shift + 8 i)` for all `i`: the unrolled loads
(/repo/src/ans.rs:179-182, 435) and the loops (/repo/src/ans.rs:199-201, 210-217). -/
def orBytes : Nat → Nat → List UInt8 → Nat
  | acc, _, [] => acc
  | acc, shift, d :: ds => orBytes (acc ||| (d.toNat <<< shift)) (shift + 8) ds

/-- `helper_push_data_really_rare_cases`, /repo/src/ans.rs:193-223.  The loop body for
`buffer_a_bytes_required >= 16` distinguishes bytes for `state_a` (shift < 64) from bytes for
`state_b`; here the data are split at that point.  The assert at line 208 cannot fail after
`helper_push_data_rare_cases`. -/
def Dec.pushReallyRare (d : Dec) (data : List UInt8) : Dec × Nat :=
  if d.reqA ≤ 4 then
    let a := if d.reqA = 1 ∧ data ≠ [] then (d.a <<< 32) % 2 ^ 64 else d.a
    let n := min data.length (5 - d.reqA)
    let a := orBytes a ((d.reqA - 1) <<< 3) (data.take n)
    let req := d.reqA + n
    ({ d with a := a, reqA := if req = 5 then 0 else req }, n)
  else
    let n := min data.length (32 - d.reqA)
    let first := d.reqA - 16
    let toA := (data.take n).take (8 - first)
    let toB := (data.take n).drop (8 - first)
    let a := orBytes d.a (first <<< 3) toA
    let b := orBytes d.b ((max first 8 - 8) <<< 3) toB
    let req := d.reqA + n
    ({ d with a := a, b := b, reqA := if req = 32 then 0 else req }, n)

/-- `helper_push_data_rare_cases`, /repo/src/ans.rs:173-191. -/
def Dec.pushRare (d : Dec) (data : List UInt8) : Dec × Nat :=
  if d.reqA < 16 ∧ 4 < d.reqA then
    if 16 ≤ data.length then
      ({ d with symCount := 0, a := orBytes 0 0 (data.take 8),
                b := orBytes 0 0 ((data.drop 8).take 8), reqA := 0 }, 16)
    else
      Dec.pushReallyRare { d with symCount := 0, a := 0, b := 0, reqA := 16 } data
  else Dec.pushReallyRare d data

/-- `push_data` of `ANSDecoder`, /repo/src/ans.rs:428-442: returns the number of bytes taken. -/
def Dec.pushData (d : Dec) (data : List UInt8) : Dec × Nat :=
  if d.reqA = 0 then (d, 0)
  else if d.reqA = 1 ∧ 4 ≤ data.length then
    ({ d with a := orBytes ((d.a <<< 32) % 2 ^ 64) 0 (data.take 4), reqA := 0 }, 4)
  else d.pushRare data

/-- `num_push_bytes_avail`, /repo/src/ans.rs:408-422. -/
def Dec.numPushAvail (d : Dec) : Nat :=
  if d.reqA = 0 then 0
  else if d.reqA = 1 then 4
  else if d.reqA ≤ 5 then 5 - d.reqA
  else if 16 ≤ d.reqA then 32 - d.reqA
  else 16

/-- `helper_get_cdf_value_of_sym`, /repo/src/ans.rs:225-228. -/
def Dec.offset (d : Dec) : Nat := d.a &&& (2 ^ log2Scale - 1)

/-- `helper_advance_sym`, /repo/src/ans.rs:230-244.  The subtraction of `start` wraps as in a
release build (a debug build would stop there when it is negative). -/
def Dec.advance (d : Dec) (sl : Slot) : Dec :=
  let x := (sl.freq * (d.a >>> log2Scale) + (d.a &&& (2 ^ log2Scale - 1)) + (2 ^ 64 - sl.start)) % 2 ^ 64
  { a := d.b
    b := x
    symCount := (d.symCount + 1) % 2 ^ 16
    reqA := d.reqB ||| ((if d.symCount = symbolsPerChunk - 1 then 1 else 0) <<< 3)
    reqB := if x < normInterval then 1 else 0 }

/-- Keeps offering input to the decoder until it needs no more: one
`drain_or_fill_internal_buffer` (/repo/src/arithmetic_coder.rs:190-200) per available piece.
`cur` is what is left of the piece received last, `more` the pieces still to arrive; `none` means
the decoder still reports `NeedsMoreInput` when everything has arrived. -/
def Dec.fill : Dec → List UInt8 → List (List UInt8) → Option (Dec × List UInt8 × List (List UInt8))
  | d, cur, [] =>
    let (d', n) := d.pushData cur
    if d'.numPushAvail = 0 then some (d', cur.drop n, []) else none
  | d, cur, p :: ps =>
    let (d', n) := d.pushData cur
    if d'.numPushAvail = 0 then some (d', cur.drop n, p :: ps)
    else d'.fill (cur.drop n ++ p) ps

/-- Decodes `n` symbols.  `lookup hist off` is the receiver's model of the next symbol after the
symbols `hist` (oldest first): which symbol, with which slot, owns `off`
(`get_nibble_internal`, /repo/src/ans.rs:246-252, and `get_bit`, lines 462-473). -/
def Dec.decode {σ : Type} (lookup : List σ → Nat → σ × Slot) :
    Nat → List σ → Dec → List UInt8 → List (List UInt8) →
      Option (List σ × Dec × List UInt8 × List (List UInt8))
  | 0, hist, d, cur, more => some (hist, d, cur, more)
  | n + 1, hist, d, cur, more =>
    match d.fill cur more with
    | none => none
    | some (d', cur', more') =>
      let (s, sl) := lookup hist d'.offset
      Dec.decode lookup n (hist ++ [s]) (d'.advance sl) cur' more'

/-- `put_bit` of `ANSEncoder`: the slot of a bit, /repo/src/ans.rs:391-397. -/
def bitSlot (bit : Bool) (probOfFalse : UInt8) : Slot :=
  let p := if probOfFalse = 0 then 1 else probOfFalse.toNat
  ⟨if bit then p <<< (log2Scale - 8) else 0,
   (if bit then 256 - p else p) <<< (log2Scale - 8)⟩

/-- `get_bit` of `ANSDecoder`: the bit and slot owning an offset, /repo/src/ans.rs:462-473. -/
def bitLookup (probOfFalse : UInt8) (off : Nat) : Bool × Slot :=
  let p := if probOfFalse = 0 then 1 else probOfFalse.toNat
  let rescaled := p <<< (log2Scale - 8)
  let inv := (256 - p) <<< (log2Scale - 8)
  let bit := decide (off ≥ rescaled)
  (bit, ⟨if bit then rescaled else 0, if bit then inv else rescaled⟩)

end Divans.Ans
