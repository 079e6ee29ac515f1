import Mathlib.Data.List.Basic

/-!
# The caller's allocator in the C interface

`/repo/src/ffi/alloc_util.rs` and the functions of `/repo/src/ffi/mod.rs` that take and give back memory.  A caller
may give two functions, `alloc_func` and `free_func`, with a pointer `opaque` that is passed to them; each of the
two may be left out.  There are two heaps: that of the caller and that of Rust.

A log has what happened on both heaps, the latest first.  Addresses are numbers; which one an allocation gets is
up to the environment.
-/

namespace Divans.CAlloc

/-- Which heap. -/
inductive Side where
  | caller | rust
  deriving DecidableEq, Repr

/-- An event: memory is taken (`alloc_func(opaque, bytes)`, or the heap of Rust), or given back
(`free_func(opaque, ptr)`, or the heap of Rust, which is told the size). -/
inductive Ev where
  | take (s : Side) (tag ptr bytes : Nat)
  | give (s : Side) (tag ptr : Nat) (bytes : Option Nat)
  deriving DecidableEq, Repr

/-- `CAllocator`, `/repo/src/ffi/interface.rs:43-47`: which functions are given, and the pointer for them. -/
structure Funcs where
  alloc : Bool
  free : Bool
  tag : Nat

/-- What addresses the heaps give: from what happened before and the number of bytes. -/
abbrev Env := List Ev → Nat → Nat

/-- `MemoryBlock`, `/repo/src/ffi/alloc_util.rs:11`: its address, what was asked for, and how many elements it is
taken to have. -/
structure Block where
  ptr : Nat
  bytes : Nat
  len : Nat
  deriving DecidableEq, Repr

/-- Memory a caller has got from `divans_…_malloc_…`: its address, the size of the elements, and how many. -/
structure Lent where
  ptr : Nat
  elt : Nat
  len : Nat
  deriving DecidableEq, Repr

/-- What there is: the log, the blocks in the hands of the codec, and those in the hands of the caller. -/
structure St where
  log : List Ev
  held : List Block
  lent : List Lent
  deriving DecidableEq, Repr

/-- Memory from the caller's heap; the size is computed without a check for overflow (`usize` of 64 bits). -/
def fromCaller (f : Funcs) (env : Env) (bytes : Nat) (log : List Ev) : Nat × List Ev :=
  let n := bytes % 2 ^ 64
  (env log n, .take .caller f.tag (env log n) n :: log)

/-- Memory from Rust's heap; no call for size 0 (the pointer is a dangling one). -/
def fromRust (f : Funcs) (env : Env) (bytes : Nat) (log : List Ev) : Nat × List Ev :=
  if bytes = 0 then (0, log) else (env log bytes, .take .rust f.tag (env log bytes) bytes :: log)

/-- `alloc_cell`, `/repo/src/ffi/alloc_util.rs:72-83` (build with `std`), for `size` elements of `elt` bytes.  That
each is then set to its default is not shown. -/
def allocCell (f : Funcs) (env : Env) (elt size : Nat) (st : St) : St :=
  if f.alloc then
    let r := fromCaller f env (size * elt) st.log
    { st with log := r.2, held := ⟨r.1, size * elt % 2 ^ 64, size⟩ :: st.held }
  else
    let r := fromRust f env (size * elt) st.log
    { st with log := r.2, held := ⟨r.1, size * elt, size⟩ :: st.held }

/-- `free_cell`, `/repo/src/ffi/alloc_util.rs:84-96`. -/
def freeCell (f : Funcs) (b : Block) (log : List Ev) : List Ev :=
  if b.len ≠ 0 then
    if f.alloc then
      if f.free then .give .caller f.tag b.ptr none :: log else log
    else if b.bytes = 0 then log else .give .rust f.tag b.ptr (some b.bytes) :: log
  else log

/-- `divans_compressor_malloc_u8`, `…_malloc_usize` and those of the decompressor,
`/repo/src/ffi/mod.rs:111-117, 130-137, 276-282, 294-301`, with `alloc_stdlib`,
`/repo/src/ffi/alloc_util.rs:216-221`; `elt` is 1 or 8. -/
def malloc (f : Funcs) (env : Env) (elt n : Nat) (st : St) : St :=
  let r := if f.alloc then fromCaller f env (n * elt) st.log else fromRust f env (n * elt) st.log
  { st with log := r.2, lent := ⟨r.1, elt, n⟩ :: st.lent }

/-- `divans_compressor_free_u8` and the others, with the size the caller got,
`/repo/src/ffi/mod.rs:120-126, 139-145, 285-291, 303-309`, with `free_stdlib`, `/repo/src/ffi/alloc_util.rs:211-214`: they look only at `free_func`. -/
def freeLent (f : Funcs) (u : Lent) (log : List Ev) : List Ev :=
  if f.free then .give .caller f.tag u.ptr none :: log
  else if u.len * u.elt = 0 then log else .give .rust f.tag u.ptr (some (u.len * u.elt)) :: log

/-- What may happen between the making and the freeing of a compressor or decompressor. -/
inductive Act where
  /-- the codec takes a block -/
  | cell (elt size : Nat)
  /-- the codec gives back the `i`th of its blocks with `free_cell` -/
  | freeCell (i : Nat)
  /-- the `i`th block goes out of scope: `drop`, `/repo/src/ffi/alloc_util.rs:45-54`, leaks it -/
  | dropCell (i : Nat)
  /-- the caller asks for memory -/
  | malloc (elt n : Nat)
  /-- the caller gives back the `i`th piece -/
  | freeLent (i : Nat)

/-- One action.  A block is in one hand only, and what is given back is no longer there. -/
def act (f : Funcs) (env : Env) (st : St) : Act → St
  | .cell elt size => allocCell f env elt size st
  | .freeCell i =>
    match st.held[i]? with
    | none => st
    | some b => { st with log := freeCell f b st.log, held := st.held.eraseIdx i }
  | .dropCell i =>
    match st.held[i]? with
    | none => st
    | some _ => { st with held := st.held.eraseIdx i }
  | .malloc elt n => malloc f env elt n st
  | .freeLent i =>
    match st.lent[i]? with
    | none => st
    | some u => { st with log := freeLent f u st.log, lent := st.lent.eraseIdx i }

/-- A sequence of actions. -/
def acts (f : Funcs) (env : Env) (st : St) (as : List Act) : St := as.foldl (act f env) st

/-- `divans_new_compressor_with_custom_alloc` and the same for the decompressor, `/repo/src/ffi/mod.rs:39-52,
213-233`: the address of the state, which has `size` bytes. -/
def new (f : Funcs) (env : Env) (size : Nat) : Nat × St :=
  let r := if f.alloc then fromCaller f env size [] else fromRust f env size []
  (r.1, ⟨r.2, [], []⟩)

/-- `divans_free_compressor` and `divans_free_decompressor`, `/repo/src/ffi/mod.rs:159-169, 312-323`: `drops` is what
the `drop` of the state does (`free_ref`; `/repo/src/ffi/decompressor.rs:17-21`, `compressor.rs:269-282`).  The caller's memory of the state is given back before. -/
def free (f : Funcs) (env : Env) (size ptr : Nat) (st : St) (drops : List Act) : St :=
  if f.alloc then
    if f.free then acts f env { st with log := .give .caller f.tag ptr none :: st.log } drops else st
  else
    let st' := acts f env st drops
    { st' with log := if size = 0 then st'.log else .give .rust f.tag ptr (some size) :: st'.log }

/-- From the making to the freeing. -/
def life (f : Funcs) (env : Env) (size : Nat) (use drops : List Act) : St :=
  let r := new f env size
  free f env size r.1 (acts f env r.2 use) drops

end Divans.CAlloc
