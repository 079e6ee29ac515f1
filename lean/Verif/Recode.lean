/-!
# The recoder: commands back to raw bytes

Model of `/repo/src/cmd_to_raw/mod.rs`, the ring buffer that turns literal, copy and dictionary
commands into the decompressed bytes.

Conventions.  A panic of the program (slice out of range, unsigned underflow, division by zero,
failed assertion) is the value `none` of a function and `Run.panic` of a loop.  A loop that is
still running when the fuel is used up gives `Run.spin`.  `usize` and `u32` are `Nat`: additions
are not truncated, because every index stays below twice the ring size and the ring size is at most
`2^24`; `num_bytes` of a command is below `2^32`.  An output slice is modelled by the room left in
it; a function that writes to it returns the bytes it appended.
-/

namespace Divans.Recode

/-- The recoder state: ring buffer memory, decode index, output index, progress inside the current
command, bytes given out so far.  Models `/repo/src/cmd_to_raw/mod.rs:25-36`. -/
structure St where
  mem : List UInt8
  dec : Nat
  out : Nat
  sub : Nat
  total : Nat
  deriving DecidableEq, Repr

/-- Size of the ring buffer. -/
def St.len (s : St) : Nat := s.mem.length

/-- A new recoder on the given ring buffer.  Models `/repo/src/cmd_to_raw/mod.rs:46-56`. -/
def St.new (ring : List UInt8) : St := ⟨ring, 0, 0, 0, 0⟩

/-- The commands, as far as the recoder looks at them.  A dictionary command carries the
transformed word, because the dictionary and its transforms live in the external brotli crate
(`TransformDictionaryWord`, `/repo/src/cmd_to_raw/mod.rs:286-295`), and the size it announces.
`other` stands for prediction mode and block switch commands.
Models `Command` (`/repo/src/interface.rs`) as matched at `/repo/src/cmd_to_raw/mod.rs:311-326`. -/
inductive Cmd where
  | lit (data : List UInt8)
  | copy (distance num : Nat)
  | dict (word : List UInt8) (finalSize : Nat)
  | other
  deriving DecidableEq, Repr

/-- `DivansOutputResult`: success, output space exhausted, failure. -/
inductive Res where
  | ok
  | more
  | fail
  deriving DecidableEq, Repr

/-- `&mem[i..i + n]`; `none` when it reaches past the end. -/
def slice? (mem : List UInt8) (i n : Nat) : Option (List UInt8) :=
  if i + n ≤ mem.length then some ((mem.drop i).take n) else none

/-- `mem[i..i + data.len()].clone_from_slice(data)`; `none` when it reaches past the end. -/
def write? (mem : List UInt8) (i : Nat) (data : List UInt8) : Option (List UInt8) :=
  if i + data.length ≤ mem.length then
    some (mem.take i ++ data ++ mem.drop (i + data.length))
  else none

/-- An index that has reached the end of the ring starts again at 0.  Models the repeated pattern
`/repo/src/cmd_to_raw/mod.rs:101-103`, `112-114`, `185-187`. -/
def wrapIdx (len i : Nat) : Nat := if i = len then 0 else i

/-- First part of `flush`: when the unread bytes wrap around, copy up to the end of the ring.
Models `/repo/src/cmd_to_raw/mod.rs:92-104`. -/
def flushFar (s : St) (room : Nat) : Option (St × List UInt8) :=
  if s.dec < s.out then
    if s.out ≤ s.len then
      let n := min (s.len - s.out) room
      match slice? s.mem s.out n with
      | none => none
      | some o => some ({ s with out := wrapIdx s.len (s.out + n) }, o)
    else none
  else some (s, [])

/-- Second part of `flush`: copy the bytes between output and decode index.
Models `/repo/src/cmd_to_raw/mod.rs:105-115`. -/
def flushNear (s : St) (room : Nat) : Option (St × List UInt8) :=
  if room ≠ 0 ∧ s.out < s.dec then
    let n := min (s.dec - s.out) room
    match slice? s.mem s.out n with
    | none => none
    | some o => some ({ s with out := wrapIdx s.len (s.out + n) }, o)
  else some (s, [])

/-- `flush`: give out as many decoded bytes as fit.  Models `/repo/src/cmd_to_raw/mod.rs:90-121`. -/
def flush (s : St) (room : Nat) : Option (St × List UInt8 × Res) :=
  match flushFar s room with
  | none => none
  | some (s₁, o₁) =>
    match flushNear s₁ (room - o₁.length) with
    | none => none
    | some (s₂, o₂) =>
      some ({ s₂ with total := s₂.total + (o₁ ++ o₂).length }, o₁ ++ o₂,
        if s₂.out ≠ s₂.dec then Res.more else Res.ok)

/-- `decode_space_left_in_ring_buffer`.  The second branch cannot underflow: it is taken when the
output index is above the decode index.  Models `/repo/src/cmd_to_raw/mod.rs:122-129`. -/
def spaceLeft (s : St) : Nat :=
  if s.out ≤ s.dec then s.out + s.len - 1 - s.dec else s.out - 1 - s.dec

/-- `copy_decoded_from_ring_buffer` with `output.len() = amount_to_copy = n`: the `n` bytes that
start `distance` bytes back.  Models `/repo/src/cmd_to_raw/mod.rs:130-150`. -/
def readBack (s : St) (distance n : Nat) : Option (List UInt8) :=
  if s.dec < distance then
    let far := distance - s.dec
    if far ≤ s.len then
      let a := min far n
      match slice? s.mem (s.len - far) a with
      | none => none
      | some o₁ =>
        if n - a ≠ 0 then
          match slice? s.mem 0 (n - a) with
          | none => none
          | some o₂ => some (o₁ ++ o₂)
        else some o₁
    else none
  else if n ≠ 0 then slice? s.mem (s.dec - distance) n else some []

/-- The source index of a copy, `none` when the distance is larger than decode index plus ring
size (the `Err(())` result).  Models `/repo/src/cmd_to_raw/mod.rs:158-169`. -/
def srcIndex (s : St) (distance : Nat) : Option Nat :=
  if distance ≤ s.dec then some (s.dec - distance)
  else if distance ≤ s.dec + s.len then some (s.dec + s.len - distance)
  else none

/-- Number of bytes `copy_some_decoded_from_ring_buffer_to_decoded` moves at once.
Models `/repo/src/cmd_to_raw/mod.rs:155-157`, `170-173` and, in the second branch, `179-182`. -/
def chunk (s : St) (src want : Nat) : Nat :=
  let t := min (min (s.len - s.dec) (s.len - src)) (min (spaceLeft s) want)
  if src < s.dec then t else min t (min (src - s.dec) (s.len - src))

/-- `copy_some_decoded_from_ring_buffer_to_decoded`; the inner result is `none` for `Err(())`.
In the first branch the source part has `dec - src` bytes, in the second `len - src`.
Models `/repo/src/cmd_to_raw/mod.rs:154-189`. -/
def copySome (s : St) (distance want : Nat) : Option (St × Option Nat) :=
  match srcIndex s distance with
  | none => some (s, none)
  | some src =>
    if s.len < src then none
    else
      let n := chunk s src want
      if src < s.dec ∧ s.dec - src < n then none
      else
        match slice? s.mem src n with
        | none => none
        | some data =>
          match write? s.mem s.dec data with
          | none => none
          | some mem => some ({ s with mem := mem, dec := wrapIdx s.len (s.dec + n) }, some n)

/-- `copy_to_ring_buffer`: append as much of `data` as fits, in at most two sections; returns the
number of bytes taken.  Models `/repo/src/cmd_to_raw/mod.rs:193-210`. -/
def put (s : St) (data : List UInt8) : Option (St × Nat) :=
  let data := data.take (min data.length (spaceLeft s))
  let a := min data.length (s.len - s.dec)
  match write? s.mem s.dec (data.take a) with
  | none => none
  | some mem =>
    if s.dec + a = s.len then
      match write? mem 0 (data.drop a) with
      | none => none
      | some mem => some ({ s with mem := mem, dec := (data.drop a).length },
          a + (data.drop a).length)
    else some ({ s with mem := mem, dec := s.dec + a }, a)

/-- `parse_literal`.  Models `/repo/src/cmd_to_raw/mod.rs:212-224`. -/
def parseLiteral (s : St) (data : List UInt8) : Option (St × Res) :=
  if data.length < s.sub then some (s, Res.fail)
  else
    match put s (data.drop s.sub) with
    | none => none
    | some (s', n) =>
      some ({ s' with sub := s'.sub + n },
        if n ≠ (data.drop s.sub).length then Res.more else Res.ok)

/-- `REPEAT_BUFFER_MAX_SIZE`.  Models `/repo/src/cmd_to_raw/mod.rs:38`. -/
def repeatMax : Nat := 64

/-- The repetition loop; the Boolean says whether every repetition fitted.
Models `/repo/src/cmd_to_raw/mod.rs:255-261`. -/
def putTimes (buf : List UInt8) : Nat → St → Option (St × Bool)
  | 0, s => some (s, true)
  | k + 1, s =>
    match put s buf with
    | none => none
    | some (s', n) =>
      if n ≠ buf.length then some ({ s' with sub := s'.sub + n }, false)
      else putTimes buf k { s' with sub := s'.sub + n }

/-- The branch of `parse_copy` for short distances that repeat.
Models `/repo/src/cmd_to_raw/mod.rs:247-269`. -/
def copyRepeat (s : St) (distance left : Nat) : Option (St × Res) :=
  let n := min left (spaceLeft s)
  match readBack s distance distance with
  | none => none
  | some buf =>
    if distance = 0 then none
    else
      match putTimes buf (n / distance) s with
      | none => none
      | some (s', false) => some (s', Res.more)
      | some (s', true) =>
        let rem := n - n / distance * distance
        match put s' (buf.take rem) with
        | none => none
        | some (s'', k) =>
          some ({ s'' with sub := s''.sub + k },
            if k ≠ rem ∨ n ≠ left then Res.more else Res.ok)

/-- `parse_copy`.  Models `/repo/src/cmd_to_raw/mod.rs:245-283`. -/
def parseCopy (s : St) (distance num : Nat) : Option (St × Res) :=
  if num < s.sub then none
  else
    let left := num - s.sub
    if distance ≤ repeatMax ∧ distance < left then copyRepeat s distance left
    else
      match copySome s distance (min left distance) with
      | none => none
      | some (s', none) => some (s', Res.fail)
      | some (s', some n) =>
        some ({ s' with sub := s'.sub + n }, if n ≠ left then Res.more else Res.ok)

/-- `parse_dictionary` after the word has been looked up and transformed.
Models `/repo/src/cmd_to_raw/mod.rs:296-309`. -/
def parseDict (s : St) (word : List UInt8) (finalSize : Nat) : Option (St × Res) :=
  if spaceLeft s < word.length then some (s, Res.more)
  else if finalSize ≠ 0 ∧ word.length ≠ finalSize then some (s, Res.fail)
  else if s.sub ≠ 0 then
    if s.sub = word.length then some (s, Res.ok) else none
  else
    match put s word with
    | none => none
    | some (s', n) =>
      if n ≠ word.length then none
      else some ({ s' with sub := word.length }, Res.ok)

/-- `parse_command`.  Models `/repo/src/cmd_to_raw/mod.rs:311-326`. -/
def parse (s : St) : Cmd → Option (St × Res)
  | .lit data => parseLiteral s data
  | .copy distance num => parseCopy s distance num
  | .dict word finalSize => parseDict s word finalSize
  | .other => some (s, Res.ok)

/-- The result of running a loop of the program with a given amount of fuel. -/
inductive Run (α : Type) where
  | done (a : α)
  | panic
  | spin
  deriving DecidableEq, Repr

/-- The end of `encode_cmd`, after the command has been parsed completely: flush unless decode and
output index lie in the same kilobyte (`(a ^ b) & 0xfffffc00 == 0` says that the quotients by 1024
agree).  Models `/repo/src/cmd_to_raw/mod.rs:348-361`. -/
def finishCmd (s : St) (room : Nat) : Run (St × List UInt8 × Res) :=
  if s.dec / 1024 = s.out / 1024 then Run.done ({ s with sub := 0 }, [], Res.ok)
  else
    match flush s room with
    | none => Run.panic
    | some (s', o, Res.ok) => Run.done ({ s' with sub := 0 }, o, Res.ok)
    | some (s', o, r) => Run.done (s', o, r)

/-- Bytes written earlier in the same call come first. -/
def Run.prepend (o : List UInt8) : Run (St × List UInt8 × Res) → Run (St × List UInt8 × Res)
  | .done (s, o', r) => .done (s, o ++ o', r)
  | .panic => .panic
  | .spin => .spin

/-- `encode_cmd`: parse; when the ring is full, flush and parse again.  The `loop` has no bound in
the program; `fuel` counts its iterations.  Models `/repo/src/cmd_to_raw/mod.rs:328-362`. -/
def encodeLoop : Nat → St → Cmd → Nat → Run (St × List UInt8 × Res)
  | 0, _, _, _ => Run.spin
  | fuel + 1, s, c, room =>
    match parse s c with
    | none => Run.panic
    | some (s', Res.fail) => Run.done (s', [], Res.fail)
    | some (s', Res.ok) => finishCmd s' room
    | some (s', Res.more) =>
      match flush s' room with
      | none => Run.panic
      | some (s'', o, Res.ok) => (encodeLoop fuel s'' c (room - o.length)).prepend o
      | some (s'', o, r) => Run.done (s'', o, r)

/-- Bytes a command produces. -/
def Cmd.size : Cmd → Nat
  | .lit data => data.length
  | .copy _ num => num
  | .dict word _ => word.length
  | .other => 0

/-- `encode_cmd` with enough fuel for every command that ends
(`Divans.Recode.encodeLoop_mono` and `Divans.Recode.encodeCmd_total`). -/
def encodeCmd (s : St) (c : Cmd) (room : Nat) : Run (St × List UInt8 × Res) :=
  encodeLoop (c.size + 2) s c room

/-- The inner loop of `encode_commands`: flush, then parse, until the command is used up.
Models `/repo/src/cmd_to_raw/mod.rs:386-402`. -/
def oneOfMany : Nat → St → Cmd → Nat → Run (St × List UInt8 × Res)
  | 0, _, _, _ => Run.spin
  | fuel + 1, s, c, room =>
    match flush s room with
    | none => Run.panic
    | some (s', o, Res.ok) =>
      match parse s' c with
      | none => Run.panic
      | some (s'', Res.fail) => Run.done (s'', o, Res.fail)
      | some (s'', Res.ok) => Run.done ({ s'' with sub := 0 }, o, Res.ok)
      | some (s'', Res.more) => (oneOfMany fuel s'' c (room - o.length)).prepend o
    | some (s', o, r) => Run.done (s', o, r)

/-- `encode_commands` on the commands from the input offset on; returns the commands that are left.
Models `/repo/src/cmd_to_raw/mod.rs:378-406` (the offset check at 383-385 is not modelled). -/
def encodeCommands : St → List Cmd → Nat → Run ((St × List UInt8 × Res) × List Cmd)
  | s, [], room =>
    match flush s room with
    | none => Run.panic
    | some r => Run.done (r, [])
  | s, c :: cs, room =>
    match oneOfMany (c.size + 2) s c room with
    | .panic => Run.panic
    | .spin => Run.spin
    | .done (s', o, Res.ok) =>
      match encodeCommands s' cs (room - o.length) with
      | .panic => Run.panic
      | .spin => Run.spin
      | .done ((s'', o', r), rest) => Run.done ((s'', o ++ o', r), rest)
    | .done (s', o, r) => Run.done ((s', o, r), c :: cs)

/-- `last_8_literals`: the eight bytes the next literal is predicted from.  The ring size is a power
of two, so the mask is a remainder.  Models `/repo/src/cmd_to_raw/mod.rs:68-86`. -/
def last8 (s : St) : Option (List UInt8) :=
  if s.dec < 8 then
    some ((List.range 8).map fun i => s.mem.getD ((s.dec + s.len - i - 1) % s.len) 0)
  else slice? s.mem (s.dec - 8) 8

end Divans.Recode
