import Verif.Num

/-
Model of the `Read` and `Write` adaptors, /repo/src/reader.rs and /repo/src/writer.rs.

The codec inside is arbitrary: any state machine with the two operations of the trait `Processor`.  The
source is a list of what its `read` will do; the sink a list of what its `write_all` will do.
Every interaction is recorded in a log, in order of time.
-/
namespace Divans.Io

/-- `DivansResult` (and `DivansOutputResult`, which has no `needsInput`). -/
inductive Res where
  /-- `Success` -/
  | success
  /-- `NeedsMoreInput` -/
  | needsInput
  /-- `NeedsMoreOutput` -/
  | needsOutput
  /-- `Failure` -/
  | failure
deriving Repr, DecidableEq

/-- The trait `Processor`, /repo/src/reader.rs:25-28, /repo/src/writer.rs:15-18.  `process` sees the
input from its offset on and the size of the output; it gives the number of input bytes taken, the
bytes written and the result.  `close` has no input. -/
structure Proc (σ : Type) where
  /-- `process` -/
  process : σ → List UInt8 → Nat → σ × Nat × List UInt8 × Res
  /-- `close` -/
  close : σ → Nat → σ × List UInt8 × Res

/-- What a `Processor` promises: cursors stay inside the slices. -/
structure Proc.Lawful {σ : Type} (p : Proc σ) : Prop where
  taken : ∀ c i n, (p.process c i n).2.1 ≤ i.length
  room : ∀ c i n, (p.process c i n).2.2.1.length ≤ n
  croom : ∀ c n, (p.close c n).2.1.length ≤ n

/-- What the next `read` of the source does.  After the list is used up it reports the end. -/
inductive Ev where
  /-- these bytes are there (fewer are given if there is less room); none at all is the end -/
  | data (bs : List UInt8)
  /-- `ErrorKind::Interrupted` -/
  | interrupted
  /-- any other error -/
  | fail
deriving Repr, DecidableEq

/-- The log. -/
inductive Entry where
  /-- the source gave bytes -/
  | got (bs : List UInt8)
  /-- the source reported its end -/
  | ended
  /-- the source reported an error -/
  | failed
  /-- the source was interrupted -/
  | again
  /-- `process` was shown `inp` and took `n` bytes of it -/
  | fed (inp : List UInt8) (n : Nat) (out : List UInt8) (r : Res)
  /-- `close` was called -/
  | closed (out : List UInt8) (r : Res)
  /-- `write_all` of these bytes to the sink succeeded -/
  | wrote (bs : List UInt8)
  /-- `write_all` failed -/
  | writeFailed
deriving Repr, DecidableEq

/-- `GenReader`, /repo/src/reader.rs:30-41.  `err` is `read_error.is_some()`. -/
structure Reader (σ : Type) where
  /-- `compressor` -/
  cd : σ
  /-- `input_buffer` -/
  buf : List UInt8
  /-- `input_offset` -/
  off : Nat
  /-- `input_len` -/
  len : Nat
  /-- `input_eof` -/
  eof : Bool
  /-- `has_flushed` -/
  flushed : Bool
  /-- `read_error` -/
  err : Bool
  /-- `input` -/
  src : List Ev
deriving DecidableEq

/-- `GenReader::new`, /repo/src/reader.rs:110-122. -/
def Reader.new {σ : Type} (cd : σ) (buf : List UInt8) (needsFlush : Bool) (src : List Ev) : Reader σ :=
  ⟨cd, buf, 0, 0, false, !needsFlush, false, src⟩

/-- `avail_in`, /repo/src/reader.rs:49, 67, 89. -/
def Reader.avail {σ : Type} (s : Reader σ) : Nat := s.len - s.off

/-- The bytes read from the source and not yet taken by the codec. -/
def Reader.pending {σ : Type} (s : Reader σ) : List UInt8 := (s.buf.take s.len).drop s.off

/-- Copying `bs` to position `k`. -/
def put (buf : List UInt8) (k : Nat) (bs : List UInt8) : List UInt8 :=
  buf.take k ++ bs ++ buf.drop (k + bs.length)

/-- `copy_to_front`, /repo/src/reader.rs:123-134. -/
def Reader.front {σ : Type} (s : Reader σ) : Reader σ :=
  let a := s.len - s.off
  if s.off = s.buf.length then { s with off := 0, len := 0 }
  else if s.off + 256 > s.buf.length ∧ a < s.off then
    { s with buf := put s.buf 0 ((s.buf.drop s.off).take a), len := s.len - s.off, off := 0 }
  else s

/-- Reading from the source, /repo/src/reader.rs:52-70: the new state and what happened. -/
def Reader.pull {σ : Type} (s : Reader σ) : Reader σ × Option Entry :=
  if s.len < s.buf.length ∧ s.eof = false then
    match s.src with
    | [] => ({ s with eof := true }, some .ended)
    | .data [] :: t => ({ s with eof := true, src := t }, some .ended)
    | .data (b :: bs) :: t =>
      let k := min (s.buf.length - s.len) (b :: bs).length
      ({ s with
          buf := put s.buf s.len ((b :: bs).take k), len := s.len + k
          src := if k < (b :: bs).length then .data ((b :: bs).drop k) :: t else t },
        some (.got ((b :: bs).take k)))
    | .interrupted :: t => ({ s with src := t }, some .again)
    | .fail :: t => ({ s with eof := true, err := true, src := t }, some .failed)
  else (s, none)

/-- The call of the codec, /repo/src/reader.rs:73-87, with `cap` bytes of output space. -/
def Reader.call {σ : Type} (p : Proc σ) (s : Reader σ) (cap : Nat) :
    Reader σ × Entry × List UInt8 × Res :=
  if s.avail = 0 then
    let x := p.close s.cd cap
    ({ s with cd := x.1, flushed := true }, .closed x.2.1 x.2.2, x.2.1, x.2.2)
  else
    let x := p.process s.cd s.pending cap
    ({ s with cd := x.1, off := s.off + x.2.1 }, .fed s.pending x.2.1 x.2.2.1 x.2.2.2, x.2.2.1, x.2.2.2)

/-- `needs_input = false` when the source gave something, /repo/src/reader.rs:65. -/
def stillNeeds : Option Entry → Bool → Bool
  | some (.got _), _ => false
  | _, needs => needs

/-- What `read` returns. -/
inductive Got where
  /-- `Ok`, with the bytes written -/
  | ok (bs : List UInt8)
  /-- the error of the source -/
  | ioErr
  /-- an error of the codec -/
  | codecErr
deriving Repr, DecidableEq

/-- The loop of `read`, /repo/src/reader.rs:51-107, with `cap = buf.len()`.  The loop is entered only
while nothing has been written (`avail_out == buf.len()`).  Without fuel: `none`. -/
def Reader.loop {σ : Type} (p : Proc σ) (cap : Nat) : Nat → Reader σ → Bool → List Entry →
    Option (Reader σ × List Entry × Got)
  | 0, _, _, _ => none
  | fuel + 1, s, needs, log =>
    if needs = true ∧ s.eof = true then some (s, log, .ok [])
    else
      let pl := s.pull
      let log1 := log ++ pl.2.toList
      if pl.2 = some .again then Reader.loop p cap fuel pl.1 needs log1
      else
        let needs1 := stillNeeds pl.2 needs
        let c := pl.1.call p cap
        let log2 := log1 ++ [c.2.1]
        if c.1.avail = 0 ∧ c.1.err = true then some ({ c.1 with err := false }, log2, .ioErr)
        else
          let s3 := if c.1.avail = 0 then c.1.front else c.1
          let needs3 := if c.1.avail = 0 then true else needs1
          match c.2.2.2 with
          | .failure => some (s3, log2, .codecErr)
          | r =>
            if r = .success ∧ s3.eof = true ∧ c.1.avail = 0 ∧ s3.flushed = true then
              some (s3, log2, .ok c.2.2.1)
            else if c.2.2.1 = [] then Reader.loop p cap fuel s3 needs3 log2
            else some (s3, log2, .ok c.2.2.1)

/-- `read`, /repo/src/reader.rs:46-108. -/
def Reader.read {σ : Type} (p : Proc σ) (fuel cap : Nat) (s : Reader σ) (log : List Entry) :
    Option (Reader σ × List Entry × Got) :=
  s.loop p cap fuel false log

/-- `GenWriter`, /repo/src/writer.rs:20-27.  `sink` says for each of the following calls of `write_all`
whether it succeeds (used up: it does). -/
structure Writer (σ : Type) where
  /-- `compressor` -/
  cd : σ
  /-- size of `output_buffer` -/
  cap : Nat
  /-- `has_flushed` -/
  flushed : Bool
  /-- `output` -/
  sink : List Bool
deriving DecidableEq

/-- `GenWriter::new`, /repo/src/writer.rs:86-94. -/
def Writer.new {σ : Type} (cd : σ) (cap : Nat) (needsFlush : Bool) (sink : List Bool) : Writer σ :=
  ⟨cd, cap, !needsFlush, sink⟩

/-- `write_all`: success or failure as the sink says. -/
def Writer.emit {σ : Type} (w : Writer σ) (bs : List UInt8) : Writer σ × Entry × Bool :=
  match w.sink with
  | false :: t => ({ w with sink := t }, .writeFailed, false)
  | true :: t => ({ w with sink := t }, .wrote bs, true)
  | [] => (w, .wrote bs, true)

/-- What `write` and `flush` return. -/
inductive Put where
  /-- `Ok(n)` -/
  | ok (n : Nat)
  /-- the error of the sink -/
  | ioErr
  /-- `TrailingInput` -/
  | trailing
  /-- an error of the codec -/
  | codecErr
deriving Repr, DecidableEq

/-- The loop of `write`, /repo/src/writer.rs:34-60; `left` is the input not taken so far, `total` is
`buf.len()`. -/
def Writer.loop {σ : Type} (p : Proc σ) (total : Nat) : Nat → Writer σ → List UInt8 → List Entry →
    Option (Writer σ × List Entry × Put)
  | 0, _, _, _ => none
  | fuel + 1, w, left, log =>
    let x := p.process w.cd left w.cap
    let e := Writer.emit { w with cd := x.1 } x.2.2.1
    let log1 := log ++ [.fed left x.2.1 x.2.2.1 x.2.2.2, e.2.1]
    if e.2.2 = false then some (e.1, log1, .ioErr)
    else
      match x.2.2.2 with
      | .needsInput =>
        if (left.drop x.2.1) ≠ [] then some (e.1, log1, .trailing) else some (e.1, log1, .ok total)
      | .needsOutput => Writer.loop p total fuel e.1 (left.drop x.2.1) log1
      | .success => some (e.1, log1, .ok total)
      | .failure => some (e.1, log1, .codecErr)

/-- `write`, /repo/src/writer.rs:31-62. -/
def Writer.write {σ : Type} (p : Proc σ) (fuel : Nat) (w : Writer σ) (bs : List UInt8)
    (log : List Entry) : Option (Writer σ × List Entry × Put) :=
  w.loop p bs.length fuel bs log

/-- `flush`, /repo/src/writer.rs:63-84 (the final `output.flush()` is part of `sinkOk`). -/
def Writer.flush {σ : Type} (p : Proc σ) (sinkOk : Bool) : Nat → Writer σ → List Entry →
    Option (Writer σ × List Entry × Put)
  | 0, _, _ => none
  | fuel + 1, w, log =>
    if w.flushed then some (w, log, if sinkOk then .ok 0 else .ioErr)
    else
      let x := p.close w.cd w.cap
      let e := Writer.emit { w with cd := x.1 } x.2.1
      let log1 := log ++ [.closed x.2.1 x.2.2, e.2.1]
      if e.2.2 = false then some (e.1, log1, .ioErr)
      else
        match x.2.2 with
        | .failure => some (e.1, log1, .codecErr)
        | .success => Writer.flush p sinkOk fuel { e.1 with flushed := true } log1
        | _ => Writer.flush p sinkOk fuel e.1 log1

end Divans.Io
