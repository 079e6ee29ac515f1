import Verif.Eng
import Verif.Grow

/-!
# The compressor with brotli inside

`/repo/src/brotli_ir_gen.rs`: brotli chooses the commands, one metablock at a time, and hands each metablock to a
callback, which codes its commands into a growing buffer; `flush` ends brotli's stream and then copies that buffer to the
caller.  The encoder of the brotli crate is not part of this repository; here it is any machine.
-/

namespace Divans.Hybrid
open Divans.Pipe Divans.Eng

/-- A metablock as the callback codes it: the prediction mode, and the commands (thawed) that the optimiser left, or
`none` if the optimiser gives up (`ir_optimize` returns an error).  `/repo/src/brotli_ir_gen.rs:136-172`. -/
structure Block where
  pm : Codec.PmIn
  cmds : Option (List Item)
  deriving DecidableEq, Repr

/-- What one call of `BrotliEncoderCompressStream` does: the state of the encoder, how much input it took, what it wrote in
brotli's own format, the metablocks it handed to the callback, and whether it reports success. -/
structure Step (σ : Type) where
  st : σ
  took : Nat
  wrote : List UInt8
  blocks : List Block
  ok : Bool

/-- The encoder of the brotli crate with its parameters set: `BrotliEncoderCompressStream` (the operation is `FINISH` or
`PROCESS`; the input; the room for output) and `BrotliEncoderIsFinished`.  External code: any machine. -/
structure Brotli (σ : Type) where
  stream : σ → Bool → List UInt8 → Nat → Step σ
  finished : σ → Bool

/-- `BrotliDivansHybridCompressor`, `/repo/src/brotli_ir_gen.rs:37-52`.  `lost`: the optimiser gave up, which leaves the
codec without its `MainThreadContext` (`/repo/src/ir_optimize/mod.rs:138-141, 278-284`: it is only put back at the end). -/
structure Hy (σ : Type) where
  /-- `brotli_encoder` -/
  br : σ
  /-- `codec`, with `header_progress` and `window_size` -/
  eng : Eng
  /-- `brotli_data` -/
  scratch : Grow.Buf UInt8
  /-- `divans_data` -/
  data : Grow.Buf UInt8
  /-- `encoded_byte_offset` -/
  offset : Nat
  lost : Bool

variable {σ : Type}

/-- A new compressor around a new brotli encoder.  `/repo/src/brotli_ir_gen.rs:325-365`. -/
def Hy.new (window : Option Int) (st : σ) : Hy σ := ⟨st, .new window, Grow.new, Grow.new, 0, false⟩

/-- Writing to the beginning of a slice. -/
def store (l w : List UInt8) : List UInt8 := w ++ l.drop w.length

/-- `divans_encode_commands`: code commands into the growing buffer, which is asked for `HEADER_LENGTH + 256` bytes each
time.  `none`: a panic, also for every refusal of the codec (`do_panic`), or more than `k` rounds.
`/repo/src/brotli_ir_gen.rs:77-122`. -/
def code (o : Codec.Opts) (dw : Nat → Nat → Nat → List UInt8) (fuel : Nat) :
    Nat → List Item → Eng → Grow.Buf UInt8 → Option (Eng × Grow.Buf UInt8)
  | 0, _, _, _ => none
  | k + 1, xs, e, d =>
    match Grow.checkout d (some 272) with
    | none => none
    | some (c, l) =>
      match e.header l.length with
      | (_, _, false) => none
      | (e1, w, true) =>
        match e1.commands o dw fuel xs (l.length - w.length) with
        | none => none
        | some (e2, out, n, r) =>
          let d' := Grow.commit c (store l (w ++ out)) (w ++ out).length
          match r with
          | .success | .needsInput => if n = xs.length then some (e2, d') else none
          | .failure => none
          | .needsOutput => code o dw fuel k (xs.drop n) e2 d'

/-- The callback for the metablocks of one call: whether the optimiser gave up.  Without a `MainThreadContext` the next
metablock panics.  `/repo/src/brotli_ir_gen.rs:136-175`. -/
def blocks (o : Codec.Opts) (dw : Nat → Nat → Nat → List UInt8) (fuel : Nat) :
    List Block → Hy σ → Option (Hy σ × Bool)
  | [], h => some (h, false)
  | b :: bs, h =>
    if h.lost then none
    else
      match b.cmds with
      | none => (blocks o dw fuel bs { h with lost := true }).map fun x => (x.1, true)
      | some xs =>
        match code o dw fuel fuel [.pm b.pm] h.eng h.data with
        | none => none
        | some (e, d) =>
          if xs = [] then blocks o dw fuel bs { h with eng := e, data := d }
          else
            match code o dw fuel fuel xs e d with
            | none => none
            | some (e', d') => blocks o dw fuel bs { h with eng := e', data := d' }

/-- The codec's `flush` into the growing buffer, until it is done.  `/repo/src/brotli_ir_gen.rs:200-215`. -/
def shut : Nat → Eng → Grow.Buf UInt8 → Option (Eng × Grow.Buf UInt8 × Code)
  | 0, _, _ => none
  | k + 1, e, d =>
    match Grow.checkout d (some 272) with
    | none => none
    | some (c, l) =>
      match e.flush l.length with
      | none => none
      | some (e1, out, r) =>
        let d' := Grow.commit c (store l out) out.length
        if r = .needsOutput then shut k e1 d' else some (e1, d', r)

/-- `internal_encode_stream` with the input not yet taken; also returns how much was taken.  `fin`: the operation is
`FINISH`, and `is_end`.  `/repo/src/brotli_ir_gen.rs:123-219`. -/
def Hy.stream (b : Brotli σ) (o : Codec.Opts) (dw : Nat → Nat → Nat → List UInt8) (fuel : Nat) (fin : Bool) (h : Hy σ)
    (inp : List UInt8) : Option (Hy σ × Nat × Code) :=
  if inp = [] ∧ b.finished h.br = true then some (h, 0, .success)
  else
    match Grow.checkout h.scratch (some 256) with
    | none => none
    | some (c, l) =>
      let r := b.stream h.br fin inp l.length
      match blocks o dw fuel r.blocks { h with br := r.st, scratch := c } with
      | none => none
      | some (h1, err) =>
        if r.ok = false then some (h1, r.took, .failure)
        else
          let h2 := { h1 with scratch := Grow.commit c (store l r.wrote) r.wrote.length }
          if r.wrote.length < l.length ∧ r.took = inp.length ∧ b.finished r.st = false then some (h2, r.took, .needsInput)
          else if err then some (h2, r.took, .failure)
          else if fin = true ∧ b.finished r.st = false then some (h2, r.took, .needsOutput)
          else if fin then
            if h2.lost then none
            else
              match shut fuel h2.eng h2.data with
              | none => none
              | some (e, d, code) => some ({ h2 with eng := e, data := d }, r.took, code)
          else some (h2, r.took, .needsInput)

/-- `encode`: nothing is written to the caller's buffer.  `/repo/src/brotli_ir_gen.rs:246-260`. -/
def Hy.encode (b : Brotli σ) (o : Codec.Opts) (dw : Nat → Nat → Nat → List UInt8) (fuel : Nat) (h : Hy σ)
    (inp : List UInt8) : Option (Hy σ × Nat × Code) :=
  (h.stream b o dw fuel false inp).map fun x =>
    (x.1, x.2.1, match x.2.2 with
      | .needsOutput | .failure => .failure
      | .success | .needsInput => .needsInput)

/-- The loop of `flush` that ends brotli's stream: whether it succeeded.  `/repo/src/brotli_ir_gen.rs:271-282`. -/
def Hy.ended (b : Brotli σ) (o : Codec.Opts) (dw : Nat → Nat → Nat → List UInt8) (fuel : Nat) :
    Nat → Hy σ → Option (Hy σ × Bool)
  | 0, _ => none
  | k + 1, h =>
    match h.stream b o dw fuel true [] with
    | none => none
    | some (h1, _, .failure) | some (h1, _, .needsInput) => some (h1, false)
    | some (h1, _, .success) => some (h1, true)
    | some (h1, _, .needsOutput) => Hy.ended b o dw fuel k h1

/-- `flush`: the header if there is none yet, the end of brotli's stream, and then as much of the growing buffer as fits.
`/repo/src/brotli_ir_gen.rs:261-295`. -/
def Hy.flush (b : Brotli σ) (o : Codec.Opts) (dw : Nat → Nat → Nat → List UInt8) (fuel : Nat) (h : Hy σ) (room : Nat) :
    Option (Hy σ × List UInt8 × Code) :=
  match h.eng.header room with
  | (e, w, false) => some ({ h with eng := e }, w, .needsOutput)
  | (e, w, true) =>
    match Hy.ended b o dw fuel fuel { h with eng := e } with
    | none => none
    | some (h1, false) => some (h1, w, .failure)
    | some (h1, true) =>
      match Grow.slice h1.data with
      | none => none
      | some all =>
        if all.length < h1.offset then none
        else
          let n := min (all.length - h1.offset) (room - w.length)
          some ({ h1 with offset := h1.offset + n }, w ++ (all.drop h1.offset).take n,
            if h1.offset + n = Grow.len h1.data then .success else .needsOutput)

end Divans.Hybrid
