import Verif.Comp
import Verif.Call

/-!
# The C interface

`/repo/src/ffi/mod.rs`, `/repo/src/ffi/compressor.rs`, `/repo/src/ffi/interface.rs`: the functions a C program
calls, with their pointers, offsets and return codes, and the two loops of `/repo/c/example.c` that call them.
Pointers that may be null are `Option`s, a buffer is the list of its bytes.  Custom allocators are in
`Verif.Alloc`; the functions that allocate for the caller, and the caller's own functions, are in `Verif.CAlloc`.
-/

namespace Divans.Ffi
open Divans.Eng (Code)
open Divans.Compressor (Comp)
open Divans.Cdf (Speed)

/-! ## Settings -/

/-- `BrotliCompressionSetting`, `/repo/src/interface.rs:431-442`: who chooses the commands. -/
inductive Select where
  | internal
  | commands
  | bitstream
  deriving DecidableEq, Repr

/-- `DivansCompressorOptions`, `/repo/src/interface.rs:444-463`.  The stride is 0 to 8 or, for
`UseBrotliRec`, 9. -/
structure Options where
  adaptation : Option (Speed × Speed × Speed × Speed)
  window : Option Int
  lgblock : Option Nat
  quality : Option Nat
  q95 : Bool
  contextMode : Option Nat
  mixing : Option Nat
  strideQuality : Option Nat
  speedQuality : Option Nat
  select : Select
  contextMap : Bool
  stride : Nat
  priorDepth : Option Nat
  bitmask : Nat
  byteScore : Option Nat
  optimizer : Nat
  deriving DecidableEq, Repr

/-- The defaults, `/repo/src/interface.rs:464-486`. -/
def Options.default : Options :=
  { adaptation := none, window := some 22, lgblock := some 22, quality := some 11, q95 := false
    contextMode := none, mixing := some 1, strideQuality := none, speedQuality := none, select := .commands
    contextMap := true, stride := 9, priorDepth := none, bitmask := 1, byteScore := none, optimizer := 0 }

/-- `Speed::ENCODER_DEFAULT_PALETTE`, `/repo/src/probability/interface.rs:303-320`. -/
def palette : List Speed :=
  [⟨0, 1024⟩, ⟨2, 1024⟩, ⟨1, 128⟩, ⟨1, 16384⟩, ⟨2, 2048⟩, ⟨4, 1024⟩, ⟨8, 8192⟩, ⟨16, 48⟩, ⟨16, 8192⟩, ⟨32, 4096⟩,
    ⟨64, 16384⟩, ⟨128, 256⟩, ⟨128, 16384⟩, ⟨512, 16384⟩, ⟨1664, 16384⟩]

/-- A `u32` as an `i32`. -/
def asI32 (v : Nat) : Int := if v < 2 ^ 31 then v else v - 2 ^ 32

/-- Set one of the four speeds; the first one that is set sets them all.
`/repo/src/ffi/compressor.rs:105-155`. -/
def setSpeed (o : Options) (i v : Nat) : Option Options :=
  (palette[v]?).map fun sp =>
    { o with
      adaptation :=
        match o.adaptation with
        | none => some (sp, sp, sp, sp)
        | some (a, b, c, d) =>
          if i = 0 then some (sp, b, c, d)
          else if i = 1 then some (a, sp, c, d)
          else if i = 2 then some (a, b, sp, d)
          else some (a, b, c, sp) }

/-- `set_option` in the option stage: `none` when it is refused.  The selectors are those of
`/repo/src/ffi/interface.rs` and `/repo/c/divans/ffi.h:15-34`.  `/repo/src/ffi/compressor.rs:64-174`. -/
def setOption (o : Options) (selector v : Nat) : Option Options :=
  if selector = 1 then some { o with quality := some (v % 2 ^ 16) }
  else if selector = 2 then some { o with window := some (asI32 v) }
  else if selector = 3 then some { o with lgblock := some v }
  else if selector = 4 then some { o with mixing := some (v % 256) }
  else if selector = 5 then
    if v = 0 then some { o with select := .internal }
    else if v = 1 then some { o with select := .commands }
    else if v = 2 then some { o with select := .bitstream }
    else none
  else if selector = 6 then if v = 1 then some { o with select := .bitstream } else none
  else if selector = 7 then
    if v = 1 then some { o with contextMap := true }
    else if v = 0 then some { o with contextMap := false }
    else none
  else if selector = 8 then setSpeed o 3 v
  else if selector = 9 then if v ≤ 8 then some { o with stride := v } else none
  else if selector = 10 then some { o with strideQuality := some (v % 256) }
  else if selector = 11 then some { o with priorDepth := some (v % 256) }
  else if selector = 12 then setSpeed o 1 v
  else if selector = 13 then setSpeed o 2 v
  else if selector = 14 then setSpeed o 0 v
  else if selector = 15 then some { o with byteScore := some v }
  else if selector = 16 then some { o with speedQuality := some (v % 256) }
  else if selector = 17 then some { o with bitmask := v % 256 }
  else if selector = 18 then some { o with q95 := decide (v % 256 ≠ 0) }
  else if selector = 19 then some { o with contextMode := some (v % 256) }
  else if selector = 20 then some { o with optimizer := v % 256 }
  else none

/-- The options of the codec: `/repo/src/divans_compressor.rs:107-119`, `/repo/src/codec/mod.rs:208-260` and
`CrossCommandBookKeeping::new`, `/repo/src/codec/interface.rs:355-369`.  `none`: the assertion on the mixing
fails. -/
def codecOpts (o : Options) : Option Codec.Opts :=
  let m := o.mixing.getD 0
  if m < 15 then
    some
      { priorDepth := o.priorDepth.getD 0
        adaptation := o.adaptation
        doContextMap := o.contextMap
        forceStride := o.stride
        mixing := if o.stride ≠ 0 ∧ m = 0 ∧ o.contextMap = true then 1 else m }
  else none

/-! ## The compressor -/

/-- The compressor that lets the brotli crate choose the commands: anything may stand for it here; `Verif.FfiBrotli`
puts the one of `Verif.Hybrid` in.  `/repo/src/brotli_to_divans`, `FFIHybridBrotliFactory` in `/repo/src/ffi/compressor.rs:15-38`. -/
structure Other where
  S : Type
  start : Options → Option S
  encode : S → List UInt8 → Nat → Option (S × Nat × List UInt8 × Code)
  flush : S → Nat → Option (S × List UInt8 × Code)

/-- `CompressorState`, `/repo/src/ffi/compressor.rs:52-56`. -/
inductive State (b : Other) where
  | options (o : Options)
  | internal (o : Codec.Opts) (c : Comp)
  | other (s : b.S)

/-- `divans_new_compressor`, `/repo/src/ffi/mod.rs:17-26, 38-52`, `/repo/src/ffi/compressor.rs:58-62`. -/
def State.new (b : Other) : State b := .options .default

/-- The return codes, `/repo/c/divans/ffi.h:8-11`. -/
def ret : Code → Nat
  | .success => 0
  | .needsInput => 1
  | .needsOutput => 2
  | .failure => 3

/-- `divans_set_option`: the state behind the pointer, and the return code.  `/repo/src/ffi/mod.rs:57-67`,
`/repo/src/ffi/compressor.rs:64-177`. -/
def cSet {b : Other} (st : Option (State b)) (selector v : Nat) : Option (State b) × Nat :=
  match st with
  | some (.options o) =>
    match setOption o selector v with
    | some o' => (some (.options o'), 0)
    | none => (some (.options o), 3)
  | st => (st, 3)

/-- The first call of `encode` or `flush` fixes the settings; `none` for a panic.
`/repo/src/ffi/compressor.rs:178-229, 236-238, 263-265`. -/
def State.started {b : Other} : State b → Option (State b)
  | .options o =>
    match o.select with
    | .internal => (codecOpts o).map fun c => .internal c (.new o.window)
    | _ => (b.start o).map .other
  | s => some s

/-- `encode` of the state, on the input not yet taken and the room left.
`/repo/src/ffi/compressor.rs:230-256`. -/
def State.encode {b : Other} (dw : Nat → Nat → Nat → List UInt8) (fuel : Nat) (s : State b) (inp : List UInt8)
    (room : Nat) : Option (State b × Nat × List UInt8 × Nat) :=
  match s.started with
  | none | some (.options _) => none
  | some (.internal o c) => (c.encode o dw fuel inp room).map fun z => (.internal o z.1, z.2.1, z.2.2.1, ret z.2.2.2)
  | some (.other x) => (b.encode x inp room).map fun z => (.other z.1, z.2.1, z.2.2.1, ret z.2.2.2)

/-- `flush` of the state.  `/repo/src/ffi/compressor.rs:257-281`. -/
def State.flush {b : Other} (dw : Nat → Nat → Nat → List UInt8) (fuel : Nat) (s : State b) (room : Nat) :
    Option (State b × List UInt8 × Nat) :=
  match s.started with
  | none | some (.options _) => none
  | some (.internal o c) => (c.flush o dw fuel room).map fun z => (.internal o z.1, z.2.1, ret z.2.2)
  | some (.other x) => (b.flush x room).map fun z => (.other z.1, z.2.1, ret z.2.2)

/-- The caller's buffer after bytes have been written at an offset. -/
def stored (buf : List UInt8) (off : Nat) (bytes : List UInt8) : List UInt8 :=
  buf.take off ++ bytes ++ buf.drop (off + bytes.length)

/-- What a C program finds after a call: the state, the two offsets, its output buffer, the return code. -/
structure After (σ : Type) where
  state : Option σ
  inOff : Option Nat
  buf : List UInt8
  outOff : Option Nat
  code : Nat

/-- `divans_encode`.  A null pointer for the state or an offset is a failure; an offset behind the end of its
buffer is taken to be a panic (`none`).  `/repo/src/ffi/mod.rs:69-91`. -/
def cEncode {b : Other} (dw : Nat → Nat → Nat → List UInt8) (fuel : Nat) (st : Option (State b)) (inp : List UInt8)
    (inOff : Option Nat) (buf : List UInt8) (outOff : Option Nat) : Option (After (State b)) :=
  match inOff, outOff, st with
  | some i, some p, some s =>
    if i ≤ inp.length ∧ p ≤ buf.length then
      (s.encode dw fuel (inp.drop i) (buf.length - p)).map fun z =>
        ⟨some z.1, some (i + z.2.1), stored buf p z.2.2.1, some (p + z.2.2.1.length), z.2.2.2⟩
    else none
  | _, _, _ => some ⟨st, inOff, buf, outOff, 3⟩

/-- `divans_encode_flush`, `/repo/src/ffi/mod.rs:93-108`. -/
def cFlush {b : Other} (dw : Nat → Nat → Nat → List UInt8) (fuel : Nat) (st : Option (State b)) (buf : List UInt8)
    (outOff : Option Nat) : Option (After (State b)) :=
  match outOff, st with
  | some p, some s =>
    if p ≤ buf.length then
      (s.flush dw fuel (buf.length - p)).map fun z =>
        ⟨some z.1, none, stored buf p z.2.1, some (p + z.2.1.length), z.2.2⟩
    else none
  | _, _ => some ⟨st, none, buf, outOff, 3⟩

/-! ## The decompressor -/

/-- A decompressor behind its pointer.  What it does after a failure is not modelled: it goes on failing. -/
inductive DState where
  | live (d : Call.Dec)
  | failed

/-- `divans_new_serial_decompressor` and `divans_new_decompressor_with_custom_alloc` without threads,
`/repo/src/ffi/mod.rs:186-195, 209-229`. -/
def DState.new (skip : Bool) : DState := .live (.new skip)

/-- The return codes of the decompressor, `/repo/src/ffi/mod.rs:248-253`. -/
def dret : Call.Ret → Nat
  | .success => 0
  | .needsInput => 1
  | .needsOutput => 2

/-- `divans_decode`.  How far the offsets move in a call that fails is not modelled: they stay.
`/repo/src/ffi/mod.rs:232-260`. -/
def cDecode (dw : Nat → Nat → Nat → List UInt8) (fuel : Nat) (st : Option DState) (inp : List UInt8)
    (inOff : Option Nat) (buf : List UInt8) (outOff : Option Nat) : Option (After DState) :=
  match inOff, outOff, st with
  | some i, some p, some (.live d) =>
    if i ≤ inp.length ∧ p ≤ buf.length then
      match d.decode dw fuel (inp.drop i) (buf.length - p) with
      | none => none
      | some .panic => none
      | some .fail => some ⟨some .failed, some i, buf, some p, 3⟩
      | some (.ok r) => some ⟨some (.live r.dec), some (i + r.used), stored buf p r.out, some (p + r.out.length), dret r.ret⟩
    else none
  | _, _, _ => some ⟨st, inOff, buf, outOff, 3⟩

/-! ## The loops of the example program -/

/-- The first loop of `compress`, `/repo/c/example.c:31-46`: the state, what was pushed, and 0, or 3 when a call
fails.  The first number bounds the rounds. -/
def encodeLoop {b : Other} (dw : Nat → Nat → Nat → List UInt8) (fuel : Nat) (buf : List UInt8) :
    Nat → State b → List UInt8 → Option (State b × List UInt8 × Nat)
  | 0, _, _ => none
  | k + 1, s, data =>
    if data = [] then some (s, [], 0)
    else
      match cEncode dw fuel (some s) data (some 0) buf (some 0) with
      | some ⟨some s', some i, buf', some p, code⟩ =>
        if code = 3 then some (s', [], 3)
        else (encodeLoop dw fuel buf' k s' (data.drop i)).map fun z => (z.1, buf'.take p ++ z.2.1, z.2.2)
      | _ => none

/-- The second loop of `compress`, `/repo/c/example.c:47-59`. -/
def flushLoop {b : Other} (dw : Nat → Nat → Nat → List UInt8) (fuel : Nat) (buf : List UInt8) :
    Nat → State b → Option (List UInt8 × Nat)
  | 0, _ => none
  | k + 1, s =>
    match cFlush dw fuel (some s) buf (some 0) with
    | some ⟨some s', _, buf', some p, code⟩ =>
      if code = 3 then some ([], 3)
      else if code = 0 then some (buf'.take p, 0)
      else (flushLoop dw fuel buf' k s').map fun z => (buf'.take p ++ z.1, z.2)
    | _ => none

/-- `compress` of the example program on a state whose options have been set, with its buffer (65536 bytes in
the program): the contents of `ret_buffer` and the result.  The second loop uses the same buffer; its contents
do not matter.  `/repo/c/example.c:25-62`. -/
def compress {b : Other} (dw : Nat → Nat → Nat → List UInt8) (fuel : Nat) (buf : List UInt8) (s : State b)
    (data : List UInt8) : Option (List UInt8 × Nat) :=
  match encodeLoop dw fuel buf fuel s data with
  | none => none
  | some (s', out, code) =>
    if code = 3 then some (out, 3)
    else (flushLoop dw fuel buf fuel s').map fun z => (out ++ z.1, z.2)

/-- The loop of `decompress`, `/repo/c/example.c:69-85`. -/
def decodeLoop (dw : Nat → Nat → Nat → List UInt8) (fuel : Nat) (buf : List UInt8) :
    Nat → DState → List UInt8 → Option (List UInt8 × Nat)
  | 0, _, _ => none
  | k + 1, s, data =>
    match cDecode dw fuel (some s) data (some 0) buf (some 0) with
    | some ⟨some s', some i, buf', some p, code⟩ =>
      if code = 3 ∨ code = 1 ∧ data = [] then some ([], code)
      else if code = 0 then some (buf'.take p, 0)
      else (decodeLoop dw fuel buf' k s' (data.drop i)).map fun z => (buf'.take p ++ z.1, z.2)
    | _ => none

/-- `decompress` of the example program: the contents of `ret_buffer` and the result.
`/repo/c/example.c:64-88`. -/
def decompress (dw : Nat → Nat → Nat → List UInt8) (fuel : Nat) (buf : List UInt8) (skip : Bool) (data : List UInt8) :
    Option (List UInt8 × Nat) :=
  decodeLoop dw fuel buf fuel (.new skip) data

/-- A list of settings, all of which have to be accepted (`set_options` of the example program asserts that each
is), `/repo/c/arg.h:10-79`. -/
def setAll (o : Options) : List (Nat × Nat) → Option Options
  | [] => some o
  | (k, v) :: t => (setOption o k v).bind fun o' => setAll o' t

end Divans.Ffi
