/-!
# The multiplexer of the two coded streams

Model of `/repo/src/mux.rs`.  A `Mux` object plays both roles: the encoder pushes bytes into two
per-stream buffers and serialises them into one byte stream of records, the decoder deserialises
such a byte stream into the two buffers and reads from them.

Conventions.  A stream identifier is a `Bool` (`false` = 0, `true` = 1), because `NUM_STREAMS` is 2
and `STREAM_ID_MASK` is 1 (`/repo/src/interface.rs:235-236`).  `usize` is modelled by `Nat`
(no overflow); every subtraction that would underflow, every out-of-range slice and every failed
`assert!` is the value `none`.  An output slice is modelled by its length (`room`), and a function
that writes to it returns the bytes it wrote.  Freshly allocated memory is modelled as zeros.
-/

namespace Divans.Mux

/-- A stream buffer: memory and the range of unread bytes.
Models `AllocatedMemoryRange` (`/repo/src/slice_util.rs:195-234`) as used at
`/repo/src/mux.rs:28`. -/
structure Buf where
  mem : List UInt8
  start : Nat
  stop : Nat
  deriving DecidableEq, Repr

/-- The unread bytes: `slice` of the range.  Models `/repo/src/slice_util.rs:230-234` and
`data_avail` (`/repo/src/mux.rs:207-209`). -/
def Buf.unread (b : Buf) : List UInt8 := (b.mem.drop b.start).take (b.stop - b.start)

/-- An empty buffer without memory.  Models the default at `/repo/src/slice_util.rs:211-215`. -/
def Buf.empty : Buf := ⟨[], 0, 0⟩

/-- `BytesToDeserialize`.  Models `/repo/src/mux.rs:8-13`. -/
inductive Btd where
  | none
  | some (id : Bool) (count : Nat)
  | hdr0 (id : Bool)
  | hdr1 (id : Bool) (lsb : UInt8)
  deriving DecidableEq, Repr

/-- `StreamState`.  Models `/repo/src/mux.rs:14-19`. -/
inductive Eof where
  | running
  | start
  | mid
  | done
  deriving DecidableEq, Repr

/-- The multiplexer object.  Models `/repo/src/mux.rs:27-36`. -/
structure Mux where
  buf : Bool → Buf
  avail : Nat
  cur : Bool
  lastFlush : Bool → Nat
  flushed : Nat
  btd : Btd
  eof : Eof

/-- `Default::default`.  Models `/repo/src/mux.rs:87-117`. -/
def Mux.new : Mux :=
  { buf := fun _ => Buf.empty, avail := 0, cur := false, lastFlush := fun _ => 0, flushed := 0,
    btd := .none, eof := .running }

/-- Replace one of two per-stream values. -/
def upd {α : Type} (f : Bool → α) (i : Bool) (v : α) : Bool → α := fun j => if j = i then v else f j

/-- Overwrite memory from `at_` on; `none` if it does not fit (slice index panic). -/
def writeAt (mem : List UInt8) (at_ : Nat) (data : List UInt8) : Option (List UInt8) :=
  if at_ + data.length ≤ mem.length then
    some (mem.take at_ ++ data ++ mem.drop (at_ + data.length))
  else none

/-- Read `n` bytes from `at_` on; `none` if out of range (slice index panic). -/
def readAt (mem : List UInt8) (at_ n : Nat) : Option (List UInt8) :=
  if at_ + n ≤ mem.length then some ((mem.drop at_).take n) else none

/-- `MAX_HEADER_SIZE`.  `/repo/src/mux.rs:21`. -/
def maxHeader : Nat := 3

/-- `MAX_FLUSH_VARIANCE`.  `/repo/src/mux.rs:22`. -/
def variance : Nat := 131073

/-- Make room for `n` more bytes at the end of a buffer: nothing to do, or move the unread bytes to
the front, or move them to a larger allocation.  Models `prep_push_for_n_bytes`,
`/repo/src/mux.rs:246-285`. -/
def prepPush (b : Buf) (n : Nat) : Option Buf :=
  if b.stop > b.mem.length then none
  else if b.mem.length - b.stop ≥ n then some b
  else if b.start > b.stop then none
  else
    let pending := b.stop - b.start
    if b.mem.length ≥ pending + n + maxHeader ∧
        (b.start = b.stop ∨ (b.start ≥ 16384 ∧ b.start > pending + maxHeader)) then
      if b.start < maxHeader ∨ b.start - maxHeader < pending then none
      else (writeAt b.mem maxHeader b.unread).map fun mem =>
        { mem := mem, start := maxHeader, stop := maxHeader + pending }
    else
      let desired := maxHeader + n + pending
      let size := 2 ^ max (Nat.log2 desired + 2) 9
      (writeAt (List.replicate size 0) maxHeader b.unread).map fun mem =>
        { mem := mem, start := maxHeader, stop := maxHeader + pending }

/-- Append bytes to a buffer.  Models `push_data` with `unchecked_push`,
`/repo/src/mux.rs:224-227` and `240-243`. -/
def Buf.push (b : Buf) (data : List UInt8) : Option Buf := do
  let b ← prepPush b data.length
  let mem ← writeAt b.mem b.stop data
  some { b with mem := mem, stop := b.stop + data.length }

/-- `push_data` / `write`.  Models `/repo/src/mux.rs:165-168` and `240-243`. -/
def Mux.push (m : Mux) (i : Bool) (data : List UInt8) : Option Mux := do
  let b ← (m.buf i).push data
  some { m with buf := upd m.buf i b }

/-- `write_buffer` used by a producer that stores `data` of stream `i` behind the write offset it
was given: room for 16 bytes is made in both buffers, then `data` is stored (a slice panic if there
is no room for it).  Models `/repo/src/mux.rs:169-188`. -/
def Mux.fill (m : Mux) (i : Bool) (data : List UInt8) : Option Mux := do
  let b0 ← prepPush (m.buf false) 16
  let b1 ← prepPush (m.buf true) 16
  let m := { m with buf := fun j => if j then b1 else b0 }
  let b := m.buf i
  let mem ← writeAt b.mem b.stop data
  some { m with buf := upd m.buf i { b with mem := mem, stop := b.stop + data.length } }

/-- `chunk_size`.  Models `/repo/src/mux.rs:37-48`. -/
def chunkSize (lastFlushed : Nat) (lagging : Bool) : Nat :=
  if lagging then 16
  else if lastFlushed ≤ 1024 then 4096
  else if lastFlushed ≤ 65536 then 16384
  else 65536

/-- The stream identifier as the low bit of a header byte. -/
def idByte (i : Bool) : UInt8 := if i then 1 else 0

/-- Header of a record of variable size.  Models `/repo/src/mux.rs:72-77`. -/
def varHeader (i : Bool) (n : Nat) : List UInt8 :=
  [idByte i, UInt8.ofNat ((n - 1) % 256), UInt8.ofNat ((n - 1) / 256 % 256)]

/-- `get_code`: header and payload size of the next record when `n` bytes are pending.
Models `/repo/src/mux.rs:55-78`. -/
def getCode (i : Bool) (n : Nat) (lagging : Bool) : Option (List UInt8 × Nat) :=
  if (lagging = false ∨ n = 4096 ∨ n = 16384 ∨ n ≥ 65536) ∧ ¬ n < 4096 then
    if n < 16384 then some ([idByte i ||| 0x10], 4096)
    else if n < 65536 then some ([idByte i ||| 0x20], 16384)
    else some ([idByte i ||| 0x30], 65536)
  else if n = 0 ∨ n ≥ 65536 then none
  else some (varHeader i n, n)

/-- `serialize_leftover`.  Models `/repo/src/mux.rs:287-294`. -/
def leftover (m : Mux) (room : Nat) : Option (Mux × List UInt8) := do
  let n := min m.avail room
  let b := m.buf m.cur
  let bytes ← readAt b.mem b.start n
  some ({ m with buf := upd m.buf m.cur { b with start := b.start + n }, avail := m.avail - n },
    bytes)

/-- `serialize_stream_id`: start one record of stream `i`, writing as much of it as fits.
Models `/repo/src/mux.rs:295-342`. -/
def emit (m : Mux) (i : Bool) (room : Nat) (lagging : Bool) : Option (Mux × List UInt8) := do
  let b := m.buf i
  if b.stop < b.start then none
  let (hdr, n) ← getCode i (b.stop - b.start) lagging
  if b.start < maxHeader then none
  let start := b.start - hdr.length
  let mem ← writeAt b.mem start hdr
  let total := n + hdr.length
  let w := min total room
  let bytes ← readAt mem start w
  let b' : Buf :=
    if start + w = b.stop then ⟨mem, maxHeader, maxHeader⟩ else ⟨mem, start + w, b.stop⟩
  some ({ m with
          buf := upd m.buf i b'
          flushed := m.flushed + n
          lastFlush := upd m.lastFlush i (m.flushed + n)
          avail := if w ≠ total then total - w else m.avail
          cur := if w ≠ total then i else m.cur }, bytes)

/-- The inner `for` of `serialize`: visit the streams of the list in order, stop after a record that
did not fit.  Models `/repo/src/mux.rs:463-473`. -/
def serPass (minLF maxLF room : Nat) :
    List Bool → Mux → List UInt8 → Bool → Option (Mux × List UInt8 × Bool)
  | [], m, out, any => some (m, out, any)
  | i :: is, m, out, any =>
    let lagging := decide (maxLF > variance + m.lastFlush i)
    let b := m.buf i
    if b.stop < b.start then none
    else if b.stop - b.start ≥ chunkSize (m.lastFlush i) lagging ∧
        m.lastFlush i ≤ minLF + variance then
      match emit m i (room - out.length) lagging with
      | none => none
      | some (m', bytes) =>
        if m'.avail ≠ 0 then some (m', out ++ bytes, true)
        else serPass minLF maxLF room is m' (out ++ bytes) true
    else serPass minLF maxLF room is m out any

/-- The outer `while` of `serialize`; the first argument bounds the number of rounds (it is never
exhausted, see `serialize_total`).  Models `/repo/src/mux.rs:450-477`. -/
def serLoop (room : Nat) : Nat → Mux → List UInt8 → Option (Mux × List UInt8)
  | fuel, m, out =>
    if out.length < room then
      match fuel with
      | 0 => none
      | fuel + 1 =>
        match serPass (min (m.lastFlush false) (m.lastFlush true))
            (max (m.lastFlush false) (m.lastFlush true)) room [false, true] m out false with
        | none => none
        | some (m', out', any) => if any then serLoop room fuel m' out' else some (m', out')
    else some (m, out)

/-- `serialize` / `linearize`: write what is due into an output of `room` bytes.
Models `/repo/src/mux.rs:445-478`. -/
def serialize (m : Mux) (room : Nat) : Option (Mux × List UInt8) :=
  if m.avail ≠ 0 then
    match leftover m room with
    | none => none
    | some (m', out) => serLoop room (room + 1) m' out
  else serLoop room (room + 1) m []

/-- The flush point of the pending stream that was flushed least recently.
Models `/repo/src/mux.rs:527-536`. -/
def minPending (m : Mux) : Option Nat :=
  let has i := (m.buf i).start ≠ (m.buf i).stop
  if has false then
    if has true ∧ m.lastFlush true < m.lastFlush false then some (m.lastFlush true)
    else some (m.lastFlush false)
  else if has true then some (m.lastFlush true)
  else none

/-- May the stream flushed last at `l` be flushed now?  Models `/repo/src/mux.rs:539-542`. -/
def due (lf : Option Nat) (l : Nat) : Bool :=
  match lf with
  | none => true
  | some f => decide (l ≤ f + variance)

/-- Start a record of a stream if it has unread bytes.  Models `/repo/src/mux.rs:543-546`. -/
def emitPending (m : Mux) (i : Bool) (room : Nat) : Option (Mux × List UInt8) :=
  if (m.buf i).start ≠ (m.buf i).stop then emit m i room true else some (m, [])

/-- The inner `for` of `flush_internal`.  Models `/repo/src/mux.rs:537-553`. -/
def flushPass (lf : Option Nat) (room : Nat) :
    List Bool → Mux → List UInt8 → Bool → Option (Mux × List UInt8 × Bool)
  | [], m, out, any => some (m, out, any)
  | i :: is, m, out, any =>
    if due lf (m.lastFlush i) then
      match emitPending m i (room - out.length) with
      | none => none
      | some (m', bytes) =>
        let any := any || decide (bytes ≠ [])
        if m'.avail ≠ 0 then some (m', out ++ bytes, any)
        else flushPass lf room is m' (out ++ bytes) any
    else flushPass lf room is m out any

/-- The outer `while` of `flush_internal`.  Models `/repo/src/mux.rs:525-559`. -/
def flushLoop (room : Nat) : Nat → Mux → List UInt8 → Option (Mux × List UInt8)
  | fuel, m, out =>
    if out.length < room then
      match fuel with
      | 0 => none
      | fuel + 1 =>
        match flushPass (minPending m) room [false, true] m out false with
        | none => none
        | some (m', out', any) => if any then flushLoop room fuel m' out' else some (m', out')
    else some (m, out)

/-- `flush_internal`.  Models `/repo/src/mux.rs:520-561`. -/
def flushInternal (m : Mux) (room : Nat) : Option (Mux × List UInt8) :=
  if m.avail ≠ 0 then
    match leftover m room with
    | none => none
    | some (m', out) => flushLoop room (room + 1) m' out
  else flushLoop room (room + 1) m []

/-- The end marker that remains to be written in each state. -/
def eofRest : Eof → List UInt8
  | .running => [0xff, 0xfe, 0xff]
  | .start => [0xfe, 0xff]
  | .mid => [0xff]
  | .done => []

/-- The state after `n` more bytes of the end marker. -/
def eofAdvance : Eof → Nat → Eof
  | e, 0 => e
  | .running, n + 1 => eofAdvance .start n
  | .start, n + 1 => eofAdvance .mid n
  | .mid, n + 1 => eofAdvance .done n
  | .done, _ => .done

/-- `serialize_close` / `flush`: write everything that is pending and then, as far as it fits, the
end marker (`EOF_MARKER`, `/repo/src/mux.rs:54`).  The three consecutive steps of the code, each
skipped when the output is full, are the prefix of the remaining marker that fits.
Models `/repo/src/mux.rs:479-519`. -/
def serializeClose (m : Mux) (room : Nat) : Option (Mux × List UInt8) :=
  if m.eof = .done then some (m, [])
  else match flushInternal m room with
    | none => none
    | some (m', out) =>
      let n := min (eofRest m'.eof).length (room - out.length)
      some ({ m' with eof := eofAdvance m'.eof n }, out ++ (eofRest m'.eof).take n)

/-- `is_eof` / `wrote_eof` / `consumed_all_streams_until_eof`.  Models `/repo/src/mux.rs:213-223`. -/
def Mux.isEof (m : Mux) : Bool :=
  decide ((m.buf false).start = (m.buf false).stop ∧ (m.buf true).start = (m.buf true).stop ∧
    m.eof = .done)

/-- `encountered_eof`.  Models `/repo/src/mux.rs:152-157`. -/
def Mux.sawEof (m : Mux) : Bool := decide (m.eof = .done)

/-- `deserialize_eof`: match the end marker as far as the (non-empty) input goes.
Models `/repo/src/mux.rs:343-382`. -/
def deserializeEof (m : Mux) (input : List UInt8) : Mux × Nat :=
  let (e1, in1) :=
    match m.eof, input with
    | .running, b :: r => if b = 0xff then (Eof.start, r) else (.running, b :: r)
    | e, l => (e, l)
  let (e2, in2) :=
    match e1, in1 with
    | .start, b :: r => if b = 0xfe then (Eof.mid, r) else (.start, b :: r)
    | e, l => (e, l)
  let (e3, in3) :=
    match e2, in2 with
    | .mid, b :: r => if b = 0xff then (Eof.done, r) else (.mid, b :: r)
    | e, l => (e, l)
  ({ m with eof := e3 }, input.length - in3.length)

/-- The low bit of a header byte: `input[0] & STREAM_ID_MASK`.  `/repo/src/mux.rs:423`. -/
def idOf (b : UInt8) : Bool := b &&& 1 = 1

/-- Payload size of a one-byte header, a `u32` left shift: `1024 << ((b >> 4) << 1)`.
`/repo/src/mux.rs:436`. -/
def fixedSize (b : UInt8) : Nat := 1024 * 2 ^ (2 * (b.toNat / 16)) % 2 ^ 32

/-- `deserialize` / `write_linear`: consume multiplexed bytes and append their payload to the two
buffers; returns the number of bytes consumed.  The first argument bounds the number of rounds
(recursive calls and loop iterations alike).  Models `/repo/src/mux.rs:383-444`. -/
def deserializeAux : Nat → Mux → List UInt8 → Option (Mux × Nat)
  | _, m, [] => some (m, 0)
  | 0, _, _ :: _ => none
  | fuel + 1, m, b :: r =>
    if m.eof = .done then some (m, 0)
    else match m.btd with
      | .hdr0 id =>
        (deserializeAux fuel { m with btd := .hdr1 id b } r).map fun (m', n) => (m', n + 1)
      | .hdr1 id lsb =>
        (deserializeAux fuel { m with btd := .some id (lsb.toNat + 256 * b.toNat + 1) } r).map
          fun (m', n) => (m', n + 1)
      | .some id count =>
        if count > (b :: r).length then
          (m.push id (b :: r)).map fun m' =>
            ({ m' with btd := .some id (count - (b :: r).length) }, (b :: r).length)
        else
          match m.push id ((b :: r).take count) with
          | none => none
          | some m' =>
            (deserializeAux fuel { m' with btd := .none } ((b :: r).drop count)).map
              fun (m'', n) => (m'', n + count)
      | .none =>
        if b = 0xff ∨ (b = 0xfe ∧ m.eof ≠ .running) then some (deserializeEof m (b :: r))
        else if b.toNat < 16 then
          if (b :: r).length < 3 then
            (deserializeAux fuel { m with btd := .hdr0 (idOf b) } r).map fun (m', n) => (m', n + 1)
          else
            (deserializeAux fuel
              { m with btd := .some (idOf b) ((r.getD 0 0).toNat + 256 * (r.getD 1 0).toNat + 1) }
              (r.drop 2)).map fun (m', n) => (m', n + 3)
        else
          (deserializeAux fuel { m with btd := .some (idOf b) (fixedSize b) } r).map
            fun (m', n) => (m', n + 1)

/-- `deserialize` with enough rounds.  Models `/repo/src/mux.rs:383-444`. -/
def deserialize (m : Mux) (input : List UInt8) : Option (Mux × Nat) :=
  deserializeAux (2 * input.length + 2) m input

/-- `consume_data` / `consume`: mark `n` bytes as read.  The code does not check `n`.
Models `/repo/src/mux.rs:210-212`. -/
def Mux.consume (m : Mux) (i : Bool) (n : Nat) : Mux :=
  { m with buf := upd m.buf i { m.buf i with start := (m.buf i).start + n } }

/-- Take the whole buffer of a stream away, leaving an empty one: what the worker's `push` does to
the buffer returned by `edit` (`/repo/src/mux.rs:143-145`, `/repo/src/threading.rs:235-242`). -/
def Mux.takeBuf (m : Mux) (i : Bool) : Mux × Buf :=
  ({ m with buf := upd m.buf i Buf.empty }, m.buf i)

/-- Give a used allocation back to a stream that has none; the range is left alone.
Models `/repo/src/codec/decoder.rs:323-327`. -/
def Mux.recycle (m : Mux) (i : Bool) (mem : List UInt8) : Mux :=
  if (m.buf i).mem = [] then { m with buf := upd m.buf i { m.buf i with mem := mem } } else m

/-- `prealloc`: both buffers must be without memory and get `n` bytes each; the ranges are left
alone.  Models `/repo/src/mux.rs:228-234`. -/
def Mux.prealloc (m : Mux) (n : Nat) : Option Mux :=
  if (m.buf false).mem = [] ∧ (m.buf true).mem = [] then
    some { m with buf := fun i => { m.buf i with mem := List.replicate n 0 } }
  else none

end Divans.Mux
