import Verif.Num

/-
Model of the growable buffer, /repo/src/resizable_buffer.rs.
Elements are of any type `α` with a default; `usize` is a natural number (sizes stay far below 2^64,
and an allocation that does not fit into memory aborts the program).
-/
namespace Divans.Grow

/-- `ResizableByteBuffer`, /repo/src/resizable_buffer.rs:19-22. -/
structure Buf (α : Type) where
  /-- the allocated cell -/
  data : List α
  /-- how much of it is committed -/
  size : Nat
deriving Repr, DecidableEq

variable {α : Type} [Inhabited α]

/-- `new`, /repo/src/resizable_buffer.rs:29-34. -/
def new : Buf α := ⟨[], 0⟩

/-- The size of the first allocation, /repo/src/resizable_buffer.rs:37. -/
def firstSize : Nat := 66000

/-- `ensure_free_space_in_buffer`, /repo/src/resizable_buffer.rs:35-43.  `alloc_cell` gives default
elements; `split_at(self.size)` panics when less than `size` elements are there. -/
def ensure (b : Buf α) (min : Nat) : Option (Buf α) :=
  if b.data = [] then some { b with data := List.replicate firstSize default }
  else if b.size + min > b.data.length then
    if b.size > b.data.length then none
    else some { b with data := b.data.take b.size ++ List.replicate (b.size * 2 - b.size) default }
  else some b

/-- `checkout_next_buffer`, /repo/src/resizable_buffer.rs:44-47: the buffer afterwards and the
elements handed out (a mutable slice in the code; `put` below writes it back). `none` is a panic. -/
def checkout (b : Buf α) (min : Option Nat) : Option (Buf α × List α) :=
  match ensure b (min.getD 1) with
  | none => none
  | some c => if c.size > c.data.length then none else some (c, c.data.drop c.size)

/-- The caller writes `w` into the slice it was given (same length), and commits `n`:
/repo/src/resizable_buffer.rs:48-50. -/
def commit (b : Buf α) (w : List α) (n : Nat) : Buf α :=
  { data := b.data.take b.size ++ w, size := b.size + n }

/-- `slice`, /repo/src/resizable_buffer.rs:57-59; `none` is a panic. -/
def slice (b : Buf α) : Option (List α) :=
  if b.size > b.data.length then none else some (b.data.take b.size)

/-- `len`, /repo/src/resizable_buffer.rs:51-53. -/
def len (b : Buf α) : Nat := b.size

end Divans.Grow
