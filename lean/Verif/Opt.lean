import Verif.Codec
import Verif.Recode

/-!
# The optimiser of command lists

Models /repo/src/ir_optimize/mod.rs and /repo/src/ir_optimize/cache.rs: before the commands of a block are
coded, a literal is merged with a following copy when an estimate of the coded size says that this is
shorter, and always with a following literal.

The estimate is made by coding the commands with a codec that only adds up costs.  What it answers is
arbitrary here, and so is whether coding reports an error.  Coding a command needs its bytes
(`brotli::thaw_pair`), which is modelled because it crashes when the bytes are not there.  Other panics
inside that codec are not modelled here (see C41, C42).
-/

namespace Divans.Opt

open Codec (Lru4 mnemonicCode fromMnemonic obsDistance)

/-- Result of a function: `Ok`, `Err`, or a panic. -/
inductive Out (α : Type) where
  | ok (a : α)
  | err
  | panic
  deriving DecidableEq, Repr

/-- Sequencing. -/
def Out.bind {α β : Type} (x : Out α) (f : α → Out β) : Out β :=
  match x with
  | .ok a => f a
  | .err => .err
  | .panic => .panic

/-- Commands whose literals are places in the input, `Command<brotli::SliceOffset>`: a literal is the
offset and the number of its bytes; dictionary words carry the transformed word and its announced size,
as in the recoder; `other` stands for block switches and prediction modes, numbered to tell them apart. -/
inductive Cmd where
  | lit (off len : Nat)
  | copy (dist num : Nat)
  | dict (word : List UInt8) (finalSize : Nat)
  | other (tag : Nat)
  deriving DecidableEq, Repr

/-- `CopyCommand::nop()` of the brotli crate. -/
def nop : Cmd := .copy 1 0

/-- `brotli::InputPair`: the input of a block, in two pieces because it may wrap in a ring; each piece
has the offset of its first byte. -/
structure Pair where
  d0 : List UInt8
  o0 : Nat
  d1 : List UInt8
  o1 : Nat
  deriving DecidableEq, Repr

/-- `thaw_pair`, /repo/src/slice_util.rs:57-74 (`SliceOffset` in the brotli crate does the same): the
bytes of a literal. `none` is an error, on which `brotli::thaw_pair` panics, or `split_at` beyond the
end. -/
def Pair.fetch (p : Pair) (off len : Nat) : Option (List UInt8) :=
  if off ≥ p.o1 then
    if off - p.o1 + len ≤ p.d1.length then some ((p.d1.drop (off - p.o1)).take len) else none
  else if p.o0 ≤ off ∧ off - p.o0 + len ≤ p.d0.length then some ((p.d0.drop (off - p.o0)).take len)
  else none

/-- `brotli::thaw_pair` of one command. -/
def Pair.thaw (p : Pair) : Cmd → Option Recode.Cmd
  | .lit off len => (p.fetch off len).map .lit
  | .copy d n => some (.copy d n)
  | .dict w f => some (.dict w f)
  | .other _ => some .other

/-! ## Which copies help later ones -/

/-- `CacheEntry`, /repo/src/ir_optimize/cache.rs:38-42. -/
structure Entry where
  dist : Nat
  origin : Nat
  deriving DecidableEq, Repr

/-- `Cache`, /repo/src/ir_optimize/cache.rs:43-46.  The hit list holds for each command the code and the
number plus one, cut to 32 bits, of the later copy that it helps; zero bytes mean none. -/
structure Cache where
  e0 : Entry
  e1 : Entry
  e2 : Entry
  e3 : Entry
  log : List (Nat × Nat)
  deriving DecidableEq, Repr

/-- `Cache::new`, /repo/src/ir_optimize/cache.rs:50-58. -/
def Cache.new (l : Lru4) (n : Nat) : Cache :=
  ⟨⟨l.d0, 0⟩, ⟨l.d1, 0⟩, ⟨l.d2, 0⟩, ⟨l.d3, 0⟩, List.replicate n (0, 0)⟩

/-- The distances, /repo/src/ir_optimize/cache.rs:84. -/
def Cache.lru (c : Cache) : Lru4 := ⟨c.e0.dist, c.e1.dist, c.e2.dist, c.e3.dist⟩

/-- `cache[i]`. -/
def Cache.entry (c : Cache) : Nat → Entry
  | 0 => c.e0
  | 1 => c.e1
  | 2 => c.e2
  | _ => c.e3

/-- `cache[i].origin_offset = o`. -/
def Cache.setOrigin (c : Cache) (i o : Nat) : Cache :=
  match i with
  | 0 => { c with e0 := { c.e0 with origin := o } }
  | 1 => { c with e1 := { c.e1 with origin := o } }
  | 2 => { c with e2 := { c.e2 with origin := o } }
  | _ => { c with e3 := { c.e3 with origin := o } }

/-- Position in the hit list, `get_cache_hit_log`, /repo/src/ir_optimize/cache.rs:62-75. -/
def Cache.slot (c : Cache) (i : Nat) : Nat := if i < c.log.length then i else 0

/-- `forward_reference_hitlist` and `set_code_and_offset`, /repo/src/ir_optimize/cache.rs:76-81, 10-17. -/
def Cache.forward (c : Cache) (code cacheIndex i : Nat) : Cache :=
  let c' := c.setOrigin cacheIndex i
  { c' with log := c'.log.set (c'.slot (c.entry cacheIndex).origin) (code, (i + 1) % 2 ^ 32) }

/-- The entry of the list of distances that a short code refers to, the third result of
`get_distance_from_mnemonic_code`, /repo/src/codec/interface.rs:979-1011. -/
def codeEntry (code : Nat) : Nat := if code < 4 then code else code % 4 / 2

/-- The second half of `populate`, /repo/src/ir_optimize/cache.rs:92-106. -/
def Cache.push (c : Cache) (cur : Lru4) (d i : Nat) : Cache :=
  if d = cur.d0 then { c with e0 := ⟨d, i⟩ }
  else if d = cur.d1 then { c with e0 := ⟨d, i⟩, e1 := c.e0 }
  else if d = cur.d2 then { c with e0 := ⟨d, i⟩, e1 := c.e0, e2 := c.e1 }
  else { c with e0 := ⟨d, i⟩, e1 := c.e0, e2 := c.e1, e3 := c.e2 }

/-- `populate`, /repo/src/ir_optimize/cache.rs:83-107; `none` when the `i32` addition overflows. -/
def Cache.populate (c : Cache) (d i : Nat) : Option Cache :=
  (mnemonicCode c.lru d).map fun code =>
    (if code < 15 then c.forward code (codeEntry code) i else c).push c.lru d i

/-- The pass over all commands that fills the hit list, /repo/src/ir_optimize/mod.rs:188-192. -/
def Cache.fill (c : Cache) : Nat → List Cmd → Option Cache
  | _, [] => some c
  | i, .copy d _ :: cs => (c.populate d i).bind fun c' => c'.fill (i + 1) cs
  | i, _ :: cs => c.fill (i + 1) cs

/-- What the hit list says about command `i`: the code, or `none` for a miss,
/repo/src/ir_optimize/cache.rs:24-33. -/
def Cache.hit (c : Cache) (i : Nat) : Option Nat :=
  match c.log[c.slot i]? with
  | some (code, o) => if o = 0 then none else some code
  | none => none

/-- `copy.distance - 1`, `+ 1` and so on in `should_merge`, /repo/src/ir_optimize/mod.rs:46-58: whether the
arithmetic on 32 bits stays in range.  The value itself is only used while the cost of the combined
literal is determined, and does not matter here. -/
def presetFits (entryId d : Nat) : Bool :=
  match entryId with
  | 4 | 6 => 1 ≤ d
  | 8 | 10 => 2 ≤ d
  | 12 | 14 => 3 ≤ d
  | 5 | 7 => d + 1 < 2 ^ 32
  | 9 | 11 => d + 2 < 2 ^ 32
  | 13 => d + 3 < 2 ^ 32
  | _ => true

/-! ## Merging -/

/-- What is arbitrary. -/
structure Oracle where
  /-- the answer of the estimate for the copy at this index; `none` is an error -/
  cheaper : Nat → Option Bool
  /-- does coding the command at this index report an error? -/
  codingFails : Nat → Bool

/-- `should_merge`, /repo/src/ir_optimize/mod.rs:16-111.  `debug`: arithmetic is checked. The snapshot
taken on entry is restored at the end, so that the distances `lru` of the codec are as before. -/
def shouldMerge (debug : Bool) (o : Oracle) (p : Pair) (c : Cache) (lru : Lru4) (off len d n index : Nat) :
    Out Bool :=
  if off + len + n > p.o0 + p.d0.length ∧ off < p.o0 + p.d0.length then .ok false
  else
    match mnemonicCode lru d with
    | none => .panic
    | some code =>
      if debug = true ∧ code = 15 ∧ (c.hit index).all (presetFits · d) = false then .panic
      else if (p.fetch off (len + n)).isSome ∧ (p.fetch off len).isSome then
        match o.cheaper index with
        | some b => .ok b
        | none => .err
      else .panic

/-- The state of the loop: the commands, the index of the command others may be merged into, and the
distances known to the codec that estimates. -/
structure St where
  cmds : List Cmd
  elig : Nat
  lru : Lru4
  deriving DecidableEq, Repr

/-- Coding one command, as far as it matters here. -/
def code (o : Oracle) (p : Pair) (index : Nat) (c : Cmd) (lru : Lru4) : Out Lru4 :=
  if (p.thaw c).isSome then
    if o.codingFails index then .err
    else .ok (match c with
      | .copy d _ => obsDistance lru d
      | _ => lru)
  else .panic

/-- `step_command`, /repo/src/ir_optimize/mod.rs:231-249: the command merged into so far is coded and the
current one becomes the one to merge into. -/
def stepCommand (o : Oracle) (p : Pair) (s : St) (e : Cmd) (index : Nat) : Out St :=
  (code o p s.elig e s.lru).bind fun l => .ok ⟨s.cmds, index, l⟩

/-- Merge the command at `index` into the literal, and leave an empty copy in its place,
/repo/src/ir_optimize/mod.rs:206-208, 223-224. -/
def merge (s : St) (off len index : Nat) : St :=
  { s with cmds := (s.cmds.set s.elig (.lit off len)).set index nop }

/-- The body of the loop, /repo/src/ir_optimize/mod.rs:194-249. -/
def step (debug : Bool) (o : Oracle) (p : Pair) (c : Cache) (s : St) (index : Nat) : Out St :=
  match s.cmds[s.elig]?, s.cmds[index]? with
  | some (.lit off len), some (.copy d n) =>
    (shouldMerge debug o p c s.lru off len d n index).bind fun b =>
      if b = true ∧ ¬ (off < p.d0.length ∧ off + len + n > p.d0.length) then
        .ok (merge s off (len + n) index)
      else stepCommand o p s (.lit off len) index
  | some (.lit off len), some (.lit off' len') =>
    if off < p.d0.length ∧ off + len + len' > p.d0.length then stepCommand o p s (.lit off len) index
    else if off + len = off' then .ok (merge s off (len + len') index)
    else .panic
  | some e, some _ => stepCommand o p s e index
  | _, _ => .panic

/-- The loop, for `k` commands from `index`, /repo/src/ir_optimize/mod.rs:194. -/
def loop (debug : Bool) (o : Oracle) (p : Pair) (c : Cache) : Nat → Nat → St → Out St
  | 0, _, s => .ok s
  | k + 1, index, s => (step debug o p c s index).bind fun s' => loop debug o p c k (index + 1) s'

/-- Coding what is left, /repo/src/ir_optimize/mod.rs:251-268. -/
def codeRest (o : Oracle) (p : Pair) : Nat → List Cmd → Lru4 → Out Unit
  | _, [], _ => .ok ()
  | i, c :: cs, l => (code o p i c l).bind fun l' => codeRest o p (i + 1) cs l'

/-- Is it a copy of no bytes? -/
def isEmptyCopy : Cmd → Bool
  | .copy _ 0 => true
  | _ => false

/-- `ir_optimize`, /repo/src/ir_optimize/mod.rs:112-286, from the distances `lru` known to the codec; the
codec that estimates starts afresh, with the distances `Bk.init.dist`. -/
def optimise (debug : Bool) (o : Oracle) (p : Pair) (lru : Lru4) (cmds : List Cmd) : Out (List Cmd) :=
  if cmds.length = 0 then .ok cmds
  else
    match (Cache.new lru cmds.length).fill 0 cmds with
    | none => .panic
    | some c =>
      (loop debug o p c (cmds.length - 1) 1 ⟨cmds, 0, Codec.Bk.init.dist⟩).bind fun s =>
        (codeRest o p s.elig (s.cmds.drop s.elig) s.lru).bind fun _ =>
          .ok (s.cmds.filter fun x => !isEmptyCopy x)

end Divans.Opt
