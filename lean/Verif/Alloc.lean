/-
Model of the allocator that keeps one block for reuse, /repo/src/alloc_util.rs, and of the memory
prefixes it hands out, /repo/src/slice_util.rs:136-192.

A block is its content and the number under which the underlying allocator gave it out; `none` is
`AllocatedMemory::default()`, which no allocator gave out.
-/
namespace Divans.Alloc

variable {α : Type}

/-- `AllocT::AllocatedMemory`. -/
structure Mem (α : Type) where
  /-- who it is; `none` for the default value -/
  id : Option Nat
  /-- its elements -/
  data : List α
deriving Repr, DecidableEq

/-- `AllocatedMemory::default()`. -/
def Mem.none : Mem α := ⟨Option.none, []⟩

/-- The underlying allocator is arbitrary: what it gives for the `n`th request, of `size` elements.
All that is known is that there are enough of them. -/
structure Base (α : Type) where
  /-- the elements of the block -/
  content : Nat → Nat → List α
  /-- it is large enough -/
  enough : ∀ n size, size ≤ (content n size).length

/-- A cell in the hands of a user: `AllocatedMemoryPrefix(mem, len)`, /repo/src/slice_util.rs:136. A cell
allocated directly, without prefix, has the whole block. -/
structure Cell (α : Type) where
  /-- the block -/
  mem : Mem α
  /-- the length of the prefix, a `u32` -/
  len : Nat
deriving Repr, DecidableEq

/-- `slice`, /repo/src/slice_util.rs:174-177; `split_at` panics beyond the end. -/
def Cell.slice (c : Cell α) : Option (List α) :=
  if c.len ≤ c.mem.data.length then some (c.mem.data.take c.len) else Option.none

/-- Calls of the underlying allocator. -/
inductive Call where
  /-- `alloc_cell` of so many elements gave block `id` -/
  | alloc (id size : Nat)
  /-- `free_cell` of a block, or of a default value -/
  | free (id : Option Nat)
deriving Repr, DecidableEq

/-- The whole: the blocks kept for reuse (`cached_allocation` of the allocator in use first, then those
set aside by `disassemble`), the cells held by users, the number of blocks given out so far, and the
calls of the underlying allocator. -/
structure Sys (α : Type) where
  /-- `cached_allocation`, /repo/src/alloc_util.rs:19-22 -/
  caches : List (Mem α)
  /-- cells of the users -/
  held : List (Cell α)
  /-- blocks given out -/
  next : Nat
  /-- the calls -/
  log : List Call

/-- `RepurposingAlloc::new`, /repo/src/alloc_util.rs:118-123. -/
def new : Sys α := ⟨[Mem.none], [], 0, []⟩

/-- `alloc_cell` of the underlying allocator. -/
def Sys.base (b : Base α) (s : Sys α) (size : Nat) : Sys α × Mem α :=
  ({ s with next := s.next + 1, log := s.log ++ [.alloc s.next size] },
    ⟨some s.next, b.content s.next size⟩)

/-- `free_cell` of the underlying allocator. -/
def Sys.unbase (s : Sys α) (m : Mem α) : Sys α := { s with log := s.log ++ [.free m.id] }

/-- `cached_allocation`. -/
def Sys.cache (s : Sys α) : Mem α := s.caches.headD Mem.none

/-- Replace `cached_allocation`. -/
def Sys.setCache (s : Sys α) (m : Mem α) : Sys α := { s with caches := m :: s.caches.tail }

/-- Overwriting a block with the default value, /repo/src/alloc_util.rs:99-103. -/
def wipe (clear : Option α) (data : List α) : List α :=
  match clear with
  | some x => data.map fun _ => x
  | Option.none => data

/-- `CachedAllocator::alloc_cell`, /repo/src/alloc_util.rs:91-107: `clear` is
`ShouldClear::should_clear()`.  Lengths are cut to 32 bits, /repo/src/slice_util.rs:184-190.  `none` is
the failed assertion in `realloc` (187). -/
def Sys.allocCached (b : Base α) (clear : Option α) (s : Sys α) (size : Nat) :
    Option (Sys α × Cell α) :=
  if s.cache.data.length ≥ size then
    if size ≤ (wipe clear s.cache.data).length then
      some (s.setCache Mem.none, ⟨⟨s.cache.id, wipe clear s.cache.data⟩, size % 2 ^ 32⟩)
    else Option.none
  else
    let r := s.base b size
    some (r.1, ⟨r.2, size % 2 ^ 32⟩)

/-- `CachedAllocator::free_cell`, /repo/src/alloc_util.rs:108-114. -/
def Sys.freeCached (s : Sys α) (c : Cell α) : Sys α :=
  if c.mem.data.length > s.cache.data.length then (s.setCache c.mem).unbase s.cache
  else s.unbase c.mem

/-- `free_ref`, /repo/src/alloc_util.rs:144-146; `free`, 147-150, is the same and gives up the
allocator. -/
def Sys.freeRef (s : Sys α) : Sys α := (s.setCache Mem.none).unbase s.cache

/-- What can happen. -/
inductive Op (α : Type) where
  /-- allocation through `use_cached_allocation` -/
  | allocCached (clear : Option α) (size : Nat)
  /-- a user frees its `k`th cell through `use_cached_allocation` -/
  | freeCached (k : Nat)
  /-- allocation through `RepurposingAlloc` itself, /repo/src/alloc_util.rs:153-157 -/
  | alloc (size : Nat)
  /-- a user frees its `k`th cell through `RepurposingAlloc` itself, /repo/src/alloc_util.rs:158-160 -/
  | free (k : Nat)
  /-- a user writes to its `k`th cell -/
  | write (k : Nat) (data : List α)
  /-- `free_ref` -/
  | freeRef
  /-- `disassemble`, and a new allocator around the underlying one,
  /repo/src/alloc_util.rs:124-126, 118-123 -/
  | nest
  /-- `free` of that allocator, and `reassemble`, /repo/src/alloc_util.rs:147-150, 127-132 -/
  | unnest

/-- Writing does not change the size of a block. -/
def Cell.write (c : Cell α) (data : List α) : Cell α :=
  if data.length = c.mem.data.length then { c with mem := { c.mem with data := data } } else c

/-- One step.  Operations on cells that are not there, and ending what was not begun, do nothing. -/
def Sys.step (b : Base α) (s : Sys α) : Op α → Option (Sys α)
  | .allocCached clear size =>
    (s.allocCached b clear size).map fun x => { x.1 with held := x.2 :: x.1.held }
  | .freeCached k =>
    match s.held[k]? with
    | Option.none => some s
    | some c => some ({ s with held := s.held.eraseIdx k }.freeCached c)
  | .alloc size =>
    let r := s.base b size
    some { r.1 with held := ⟨r.2, r.2.data.length⟩ :: r.1.held }
  | .free k =>
    match s.held[k]? with
    | Option.none => some s
    | some c => some ({ s with held := s.held.eraseIdx k }.unbase c.mem)
  | .write k data => some { s with held := s.held.modify k (·.write data) }
  | .freeRef => some s.freeRef
  | .nest => some { s with caches := Mem.none :: s.caches }
  | .unnest =>
    match s.caches with
    | _ :: d :: t => some ({ s with caches := d :: t }.unbase s.cache)
    | _ => some s

/-- A history. -/
def Sys.run (b : Base α) : Sys α → List (Op α) → Option (Sys α)
  | s, [] => some s
  | s, op :: ops => (s.step b op).bind fun s' => s'.run b ops

end Divans.Alloc
