import Verif.Eng
import Verif.RawCmd

/-!
# The compressor

Header, assembler of raw input and codec put together: `DivansCompressor`,
`/repo/src/divans_compressor.rs`, with its three calls.  Commands of the assembler that the codec does not
take because the output is full are kept as references into the assembler's ring buffer ("freeze dried")
until the next call.
-/

namespace Divans.Compressor
open Divans.Pipe Divans.Eng

/-- The prediction mode command the assembler begins with, `/repo/src/raw_to_cmd/mod.rs:112-134`.  Its
backing memory is zero except for the context maps and the mixing values. -/
def rawPm : Codec.PmIn :=
  ⟨0, 0, some ⟨(0, 0), (0, 0), (0, 0), (0, 0), (0, 0), (0, 0)⟩, (List.range 64).map UInt8.ofNat, [0, 1, 2, 3],
    List.replicate 8192 4⟩

/-- A command of the assembler as the codec sees it, `/repo/src/raw_to_cmd/mod.rs:119-174`. -/
def item : RawCmd.Cmd → Item
  | .pm => .pm rawPm
  | .lit _ d => .lit d false

/-- A freeze dried command: the place of a literal in the ring buffer. -/
inductive Frozen where
  | pm
  | lit (off len : Nat)
  deriving DecidableEq, Repr

/-- `freeze_dry` of one command, `/repo/src/divans_compressor.rs:207-245`. -/
def freeze : RawCmd.Cmd → Frozen
  | .pm => .pm
  | .lit off d => .lit off d.length

/-- `thaw` of one command (brotli crate, called in `/repo/src/divans_compressor.rs:132-138`).  A
prediction mode command would come back with maps read from the beginning of the ring buffer, where they
are not; `none` stands for this as well as for a place outside the ring. -/
def thaw (ring : List UInt8) : Frozen → Option RawCmd.Cmd
  | .pm => none
  | .lit off n => (RawCmd.piece ring off n).map (.lit off)

/-- `thaw_commands`, `/repo/src/divans_compressor.rs:132-138`. -/
def thawAll (ring : List UInt8) : List Frozen → Option (List RawCmd.Cmd)
  | [] => some []
  | f :: fs =>
    match thaw ring f, thawAll ring fs with
    | some c, some cs => some (c :: cs)
    | _, _ => none

/-- `DivansCompressor`, `/repo/src/divans_compressor.rs:54-68`: codec with header and container,
assembler, and the freeze dried commands not yet taken. -/
structure Comp where
  eng : Eng
  asm : RawCmd.St
  frozen : List Frozen

/-- A new compressor, `/repo/src/divans_compressor.rs:87-123`. -/
def Comp.new (window : Option Int) : Comp :=
  ⟨.new window, RawCmd.new (List.replicate (2 ^ (Frame.windowOf window).toNat) 0), []⟩

/-- The number of commands taken from the assembler at a time, `COMPRESSOR_CMD_BUFFER_SIZE`,
`/repo/src/divans_compressor.rs:53`. -/
def slots : Nat := 16

/-- `flush_freeze_dried_cmds`, `/repo/src/divans_compressor.rs:189-206`. -/
def Comp.unfreeze (o : Codec.Opts) (dw : Nat → Nat → Nat → List UInt8) (fuel : Nat) (c : Comp) (room : Nat) :
    Option (Comp × List UInt8 × Code) :=
  if c.frozen = [] then some (c, [], .success)
  else
    match thawAll c.asm.ring c.frozen with
    | none => none
    | some cs =>
      match c.eng.commands o dw fuel (cs.map item) room with
      | none => none
      | some (e, out, n, code) =>
        some ({ c with eng := e, frozen := c.frozen.drop n }, out, if code = .needsInput then .success else code)

/-- The loop of `encode`, `/repo/src/divans_compressor.rs:294-336`: also returns the number of bytes taken.
The first number bounds the rounds. -/
def Comp.loop (o : Codec.Opts) (dw : Nat → Nat → Nat → List UInt8) (fuel : Nat) :
    Nat → Comp → List UInt8 → Nat → Option (Comp × Nat × List UInt8 × Code)
  | 0, _, _, _ => none
  | k + 1, c, inp, room =>
    match RawCmd.stream c.asm inp slots with
    | none => none
    | some (s, n, cs, r) =>
      if r = .success then some ({ c with asm := s }, n, [], .failure)
      else if r = .needsInput ∧ cs = [] then some ({ c with asm := s }, n, [], .needsInput)
      else
        match c.eng.commands o dw fuel (cs.map item) room with
        | none => none
        | some (e, out, m, code) =>
          if code = .needsInput ∨ code = .success then
            if m ≠ cs.length then none
            else if r = .needsInput then some ({ c with asm := s, eng := e }, n, out, .needsInput)
            else
              (Comp.loop o dw fuel k { c with asm := s, eng := e } (inp.drop n) (room - out.length)).map
                fun z => (z.1, n + z.2.1, out ++ z.2.2.1, z.2.2.2)
          else some ({ c with asm := s, eng := e, frozen := (cs.drop m).map freeze }, n, out, code)

/-- `encode` with the input not yet taken, `/repo/src/divans_compressor.rs:276-337`. -/
def Comp.encode (o : Codec.Opts) (dw : Nat → Nat → Nat → List UInt8) (fuel : Nat) (c : Comp) (inp : List UInt8)
    (room : Nat) : Option (Comp × Nat × List UInt8 × Code) :=
  match c.eng.header room with
  | (e, w, false) => some ({ c with eng := e }, 0, w, .needsOutput)
  | (e, w, true) =>
    match Comp.unfreeze o dw fuel { c with eng := e } (room - w.length) with
    | none => none
    | some (c1, o1, code) =>
      if code = .success then
        (c1.loop o dw fuel (inp.length + 2) inp (room - w.length - o1.length)).map fun z =>
          (z.1, z.2.1, w ++ o1 ++ z.2.2.1, z.2.2.2)
      else some (c1, 0, w ++ o1, code)

/-- `encode_commands` with the commands not yet taken, `/repo/src/divans_compressor.rs:338-362`. -/
def Comp.encodeCommands (o : Codec.Opts) (dw : Nat → Nat → Nat → List UInt8) (fuel : Nat) (c : Comp)
    (xs : List Item) (room : Nat) : Option (Comp × Nat × List UInt8 × Code) :=
  (c.eng.encodeCommands o dw fuel xs room).map fun z =>
    ({ c with eng := z.1, asm := { c.asm with hdr := true } }, z.2.2.1, z.2.1, z.2.2.2)

/-- The loop of `flush`, `/repo/src/divans_compressor.rs:377-424`; `success` when it is left by a
`break`. -/
def Comp.rest (o : Codec.Opts) (dw : Nat → Nat → Nat → List UInt8) (fuel : Nat) :
    Nat → Comp → Nat → Option (Comp × List UInt8 × Code)
  | 0, _, _ => none
  | k + 1, c, room =>
    match RawCmd.flush c.asm slots with
    | none => none
    | some (s, cs, r) =>
      if r = .success ∧ cs = [] then some ({ c with asm := s }, [], .success)
      else
        match c.eng.commands o dw fuel (cs.map item) room with
        | none => none
        | some (e, out, m, code) =>
          if code = .needsInput ∨ code = .success then
            if m ≠ cs.length then none
            else if r = .success then some ({ c with asm := s, eng := e }, out, .success)
            else
              (Comp.rest o dw fuel k { c with asm := s, eng := e } (room - out.length)).map
                fun z => (z.1, out ++ z.2.1, z.2.2)
          else some ({ c with asm := s, eng := e, frozen := (cs.drop m).map freeze }, out, code)

/-- `flush`, `/repo/src/divans_compressor.rs:363-426`. -/
def Comp.flush (o : Codec.Opts) (dw : Nat → Nat → Nat → List UInt8) (fuel : Nat) (c : Comp) (room : Nat) :
    Option (Comp × List UInt8 × Code) :=
  match c.eng.header room with
  | (e, w, false) => some ({ c with eng := e }, w, .needsOutput)
  | (e, w, true) =>
    match Comp.unfreeze o dw fuel { c with eng := e } (room - w.length) with
    | none => none
    | some (c1, o1, code) =>
      if code = .success then
        match c1.rest o dw fuel 2 (room - w.length - o1.length) with
        | none => none
        | some (c2, o2, code2) =>
          if code2 = .success then
            (c2.eng.flush (room - w.length - o1.length - o2.length)).map fun z =>
              ({ c2 with eng := z.1 }, w ++ o1 ++ o2 ++ z.2.1, z.2.2)
          else some (c2, w ++ o1 ++ o2, code2)
      else some (c1, w ++ o1, code)

end Divans.Compressor
