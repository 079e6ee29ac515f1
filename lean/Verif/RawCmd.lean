import Verif.Num

/-
Model of the assembler that turns raw input into literal commands,
/repo/src/raw_to_cmd/mod.rs.  Indices are natural numbers (`u32` in the code; the ring buffer has at
most 2^24 bytes).  `none` is a panic.
-/
namespace Divans.RawCmd

/-- The commands it produces: the prediction mode command that is sent once, and literals, which are
references into the ring buffer in the code and are given by their offset and bytes here (the compressor
consumes every command, or notes its place, before it calls the assembler again). -/
inductive Cmd where
  /-- `Command::PredictionMode` -/
  | pm
  /-- `Command::Literal` -/
  | lit (off : Nat) (data : List UInt8)
deriving Repr, DecidableEq

/-- `RawToCmdState`, /repo/src/raw_to_cmd/mod.rs:23-30.  The hash table for matches is never
used. -/
structure St where
  /-- `ring_buffer` -/
  ring : List UInt8
  /-- `ring_buffer_decode_index` -/
  dec : Nat
  /-- `ring_buffer_output_index` -/
  out : Nat
  /-- `has_produced_header` -/
  hdr : Bool
deriving Repr, DecidableEq

/-- `new`, /repo/src/raw_to_cmd/mod.rs:33-41. -/
def new (ring : List UInt8) : St := ⟨ring, 0, 0, false⟩

/-- Result codes: `NeedsMoreOutput`, `Success` (of `flush`), `NeedsMoreInput` (of `stream`). -/
inductive Res where
  /-- `NeedsMoreOutput` -/
  | needsOutput
  /-- `Success` -/
  | success
  /-- `NeedsMoreInput` -/
  | needsInput
deriving Repr, DecidableEq

/-- `ring_buffer_full`, /repo/src/raw_to_cmd/mod.rs:53-55. -/
def full (s : St) : Bool := s.dec == s.ring.length || s.dec + 1 == s.out

/-- `clone_from_slice` into `ring[k..k + bs.len()]`. -/
def put (ring : List UInt8) (k : Nat) (bs : List UInt8) : List UInt8 :=
  ring.take k ++ bs ++ ring.drop (k + bs.length)

/-- `ring[k..k+n]` by `split_at`; panics when out of range. -/
def piece (ring : List UInt8) (k n : Nat) : Option (List UInt8) :=
  if k + n ≤ ring.length then some ((ring.drop k).take n) else none

/-- Last part of `flush`: the bytes from the output index to the decode index,
/repo/src/raw_to_cmd/mod.rs:158-175. `cmds` is what was emitted before in this call, `room` the free
command slots left. -/
def flushTail (s : St) (cmds : List Cmd) (room : Nat) : Option (St × List Cmd × Res) :=
  if s.dec = s.out then some (s, cmds, .success)
  else if room = 0 then some (s, cmds, .needsOutput)
  else if s.dec < s.out then none
  else
    match piece s.ring s.out (s.dec - s.out) with
    | none => none
    | some d =>
      if s.dec ≤ s.ring.length then some ({ s with out := s.dec }, cmds ++ [.lit s.out d], .success)
      else none

/-- Middle part of `flush`: when the decode index has wrapped, the bytes up to the end of the ring,
/repo/src/raw_to_cmd/mod.rs:138-157. -/
def flushWrap (s : St) (cmds : List Cmd) (room : Nat) : Option (St × List Cmd × Res) :=
  if s.dec < s.out then
    if s.out > s.ring.length then none
    else
      let n := s.ring.length - s.out
      let s' := { s with dec := if s.dec = s.ring.length then 0 else s.dec, out := 0 }
      if n ≠ 0 then
        if room = 0 then none
        else
          match piece s.ring s.out n with
          | none => none
          | some d => flushTail s' (cmds ++ [.lit s.out d]) (room - 1)
      else flushTail s' cmds room
  else flushTail s cmds room

/-- `flush`, /repo/src/raw_to_cmd/mod.rs:102-177, with `room` free command slots. -/
def flush (s : St) (room : Nat) : Option (St × List Cmd × Res) :=
  if room = 0 then some (s, [], .needsOutput)
  else if s.hdr = false then
    if room - 1 = 0 then some ({ s with hdr := true }, [.pm], .needsOutput)
    else flushWrap { s with hdr := true } [.pm] (room - 1)
  else flushWrap s [] room

/-- First copy of `stream`, /repo/src/raw_to_cmd/mod.rs:64-73: the state and the number of bytes
taken. -/
def fillEnd (s : St) (inp : List UInt8) : Option (St × Nat) :=
  if s.dec ≥ s.out then
    if s.dec > s.ring.length then none
    else
      let n := min (s.ring.length - s.dec) inp.length
      some ({ s with ring := put s.ring s.dec (inp.take n),
                     dec := if s.out ≠ 0 then 0 else s.dec + n }, n)
  else some (s, 0)

/-- Second copy of `stream`, /repo/src/raw_to_cmd/mod.rs:74-83, including the debug assertions. -/
def fillStart (s : St) (inp : List UInt8) : Option (St × Nat) :=
  if s.dec < s.out then
    let n := min (s.out - 1 - s.dec) inp.length
    if s.out ≤ s.ring.length ∧ s.dec + n ≤ s.ring.length then
      some ({ s with ring := put s.ring s.dec (inp.take n), dec := s.dec + n }, n)
    else none
  else some (s, 0)

/-- End of `stream`, /repo/src/raw_to_cmd/mod.rs:84-101; `left` is the input not taken. -/
def finish (s : St) (left room : Nat) : Option (St × List Cmd × Res) :=
  if 0 < room ∧ full s = true then
    match flush s room with
    | none => none
    | some (s', cs, .needsOutput) => some (s', cs, .needsOutput)
    | some (s', cs, _) => some (s', cs, if left ≠ 0 then .needsOutput else .needsInput)
  else if room = 0 then some (s, [], .needsOutput)
  else if left = 0 then some (s, [], .needsInput)
  else none

/-- `stream`, /repo/src/raw_to_cmd/mod.rs:56-101: given the remaining input and the number of free
command slots: the state, the number of input bytes taken, the commands, and the result. -/
def stream (s : St) (inp : List UInt8) (room : Nat) : Option (St × Nat × List Cmd × Res) :=
  match fillEnd s inp with
  | none => none
  | some (s1, n1) =>
    match fillStart s1 (inp.drop n1) with
    | none => none
    | some (s2, n2) =>
      match finish s2 (inp.length - (n1 + n2)) room with
      | none => none
      | some (s3, cs, r) => some (s3, n1 + n2, cs, r)

end Divans.RawCmd
