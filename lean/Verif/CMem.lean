import Mathlib.Data.List.Basic
import Mathlib.Data.List.Pairwise

/-!
# The memory functions of the C example

`custom_malloc_f` and `custom_free_f` of `/repo/c/custom_alloc.h`, with 64-bit pointers and `char` signed.  Memory is a function from
addresses to bytes; numbers are stored with the low byte first.
-/

namespace Divans.CMem

/-- Memory. -/
abbrev Mem := Nat → UInt8

/-- Bytes stored at an address. -/
def put (m : Mem) (a : Nat) (bs : List UInt8) : Mem := fun x => if a ≤ x ∧ x < a + bs.length then bs.getD (x - a) 0 else m x

/-- Bytes read at an address. -/
def get (m : Mem) (a k : Nat) : List UInt8 := (List.range k).map fun i => m (a + i)

/-- A number as `k` bytes. -/
def le : Nat → Nat → List UInt8
  | 0, _ => []
  | k + 1, v => UInt8.ofNat (v % 256) :: le k (v / 256)

/-- Bytes as a number. -/
def val : List UInt8 → Nat
  | [] => 0
  | b :: t => b.toNat + 256 * val t

/-- `science`, `/repo/c/custom_alloc.h:6`. -/
def science : Nat := 0x5C1E11CE

/-- `alignment_offset`, `/repo/c/custom_alloc.h:21`. -/
def align (a : Nat) : Nat := (32 - (a + 21) % 32) % 32

/-- `custom_malloc_f`, when the block it gets is at `a`: the memory and what is returned, `/repo/c/custom_alloc.h:17-25`. -/
def mallocF (m : Mem) (a op n : Nat) : Mem × Nat :=
  let m := put m a (List.replicate 52 0x34)
  let m := put m a (le 4 science)
  let m := put m (a + 4) (le 8 op)
  let m := put m (a + 12) (le 8 n)
  let m := put m (a + 20 + align a) [UInt8.ofNat (align a)]
  (m, a + 21 + align a)

/-- The size `custom_malloc_f` asks for, `/repo/c/custom_alloc.h:10`. -/
def amount (n : Nat) : Nat := (n + 52) % 2 ^ 64

/-- What `custom_free_f` does before it gives the block back: nothing for `NULL`, a failed assertion, or the address of the block and the
size that was asked for. -/
inductive Free
  | nothing
  | assertion
  | back (a n : Nat)
  deriving DecidableEq, Repr

/-- A byte taken off an address, as a `signed char`. -/
def less (q : Nat) (b : UInt8) : Nat := if b.toNat < 128 then q - b.toNat else q + (256 - b.toNat)

/-- `custom_free_f` up to giving the block back, `/repo/c/custom_alloc.h:29-45`. -/
def freeF (m : Mem) (op p : Nat) : Free :=
  if p = 0 then .nothing
  else
    let q := less (p - 1) (m (p - 1)) - 20
    if val (get m q 4) ≠ science then .assertion
    else if val (get m (q + 4) 8) ≠ op then .assertion
    else .back q (val (get m (q + 12) 8))

/-! ## The buffer that stands for the system's memory -/

/-- `huge_buffer_offset` and the blocks that are in use, each with its address and the size asked for. -/
structure Bump where
  offset : Nat
  live : List (Nat × Nat)

/-- `custom_malloc_f` with `use_fake_malloc`, the buffer being at `base`: the address of the block, `/repo/c/custom_alloc.h:11-13`. -/
def Bump.alloc (base : Nat) (s : Bump) (n : Nat) : Bump := ⟨s.offset + (n + 52), (base + s.offset, n) :: s.live⟩

/-- `custom_free_f` with `use_fake_malloc`, of a block, `/repo/c/custom_alloc.h:46-50`. -/
def Bump.free (base : Nat) (s : Bump) (b : Nat × Nat) : Bump :=
  ⟨if base + s.offset = b.1 + 21 + align b.1 + b.2 then s.offset - (20 + b.2) else s.offset, s.live.erase b⟩

end Divans.CMem
