/-!
# The growing buffer and the number printer of the C example

`/repo/c/vec_u8.h` and `custom_atoi` of `/repo/c/custom_alloc.h`.  `size_t` and `uint64_t` have 64 bits.
-/

namespace Divans.CVec

/-- `v |= v >> n`. -/
def smear (n v : Nat) : Nat := v ||| (v >>> n)

/-- `round_up_to_power_of_two`, `/repo/c/vec_u8.h:11-25`. -/
def roundUp (v : Nat) : Nat :=
  (smear 32 (smear 16 (smear 8 (smear 4 (smear 2 (smear 1 ((v + (2 ^ 64 - 1)) % 2 ^ 64)))))) + 1) % 2 ^ 64

/-- What happens to the caller's memory: blocks are numbered in the order in which they are taken. -/
inductive Ev where
  /-- `custom_malloc_f`: block, size -/
  | took (id n : Nat)
  /-- `custom_free_f` -/
  | gave (id : Nat)
  deriving DecidableEq, Repr

/-- How many blocks were taken, and the log. -/
structure Heap where
  next : Nat
  log : List Ev
  deriving DecidableEq, Repr

/-- `struct VecU8`, `/repo/c/vec_u8.h:1-4`: the block `data` points to (none: `NULL`) with its bytes, and `size`. -/
structure Vec where
  data : Option (Nat × List UInt8)
  size : Nat
  deriving DecidableEq, Repr

/-- `new_vec_u8`, `/repo/c/vec_u8.h:5-10`. -/
def Vec.new : Vec := ⟨none, 0⟩

/-- What a call does. -/
inductive Res (α : Type) where
  | ok (x : α)
  /-- `abort()` -/
  | abort
  /-- reads or writes outside of a block -/
  | wild
  deriving DecidableEq, Repr

/-- The bytes of a block; those of `NULL` are none. -/
def Vec.bytes (v : Vec) : List UInt8 :=
  match v.data with
  | none => []
  | some x => x.2

/-- `custom_free_f` of `data`; it does nothing with `NULL`, `/repo/c/custom_alloc.h:33-35`. -/
def Vec.freed (v : Vec) (h : Heap) : Heap :=
  match v.data with
  | none => h
  | some x => ⟨h.next, h.log ++ [.gave x.1]⟩

/-- The bytes a block has when it is taken: anything. -/
abbrev Junk := Nat → Nat → UInt8

/-- The second half of `push_vec_u8`, when there is place: `new_alloc_size` is `cap`, `/repo/c/vec_u8.h:46-50`. -/
def fill (h : Heap) (v : Vec) (cap total : Nat) (bs : List UInt8) : Res (Heap × Vec) :=
  if cap < total then .abort
  else
    match v.data with
    | none => .wild
    | some (id, mem) =>
      if v.size + bs.length ≤ mem.length then
        .ok (h, ⟨some (id, mem.take v.size ++ bs ++ mem.drop (v.size + bs.length)), total⟩)
      else .wild

/-- `push_vec_u8`, `/repo/c/vec_u8.h:28-52`. -/
def push (junk : Junk) (h : Heap) (v : Vec) (bs : List UInt8) : Res (Heap × Vec) :=
  let total := (v.size + bs.length) % 2 ^ 64
  if bs.length = 0 ∨ total < v.size then .ok (h, v)
  else if v.size = 0 ∨ roundUp v.size ≠ roundUp total then
    if min (roundUp v.size) (roundUp total) ≤ v.bytes.length then
      fill (v.freed ⟨h.next + 1, h.log ++ [.took h.next (roundUp total)]⟩)
        ⟨some (h.next, v.bytes.take (min (roundUp v.size) (roundUp total)) ++
          ((List.range (roundUp total)).map (junk h.next)).drop (min (roundUp v.size) (roundUp total))), v.size⟩ (roundUp total) total bs
    else .wild
  else fill h v (roundUp total) total bs

/-- `release_vec_u8`, `/repo/c/vec_u8.h:54-60`. -/
def release (h : Heap) (v : Vec) : Heap × Vec :=
  if v.size ≠ 0 then (v.freed h, .new) else (h, v)

/-- Several calls of `push_vec_u8`. -/
def pushes (junk : Junk) : Heap → Vec → List (List UInt8) → Res (Heap × Vec)
  | h, v, [] => .ok (h, v)
  | h, v, bs :: rest =>
    match push junk h v bs with
    | .ok (h', v') => pushes junk h' v' rest
    | .abort => .abort
    | .wild => .wild

/-! ## `custom_atoi` -/

/-- The first loop: the digits, the last one first, `/repo/c/custom_alloc.h:62-67`. -/
def rawDigits (n : Nat) : List UInt8 :=
  if h : n = 0 then [] else UInt8.ofNat (48 + n % 10) :: rawDigits (n / 10)
  decreasing_by omega

/-- One round of the second loop: the `i`-th byte and the `i`-th from the end change places, `/repo/c/custom_alloc.h:72-74`. -/
def swap (l : List UInt8) (i : Nat) : List UInt8 :=
  (l.set i (l.getD (l.length - i - 1) 0)).set (l.length - i - 1) (l.getD i 0)

/-- The second loop, `/repo/c/custom_alloc.h:69-75`. -/
def swaps (l : List UInt8) : List UInt8 := (List.range (l.length / 2)).foldl swap l

/-- `custom_atoi`: what is in the buffer before the zero byte, `/repo/c/custom_alloc.h:57-76`. -/
def atoi (n : Nat) : List UInt8 := if n = 0 then [48] else swaps (rawDigits n)

/-! ## The line the example prints -/

/-- The numbers in the last line of the example program: the length, the size of the file, and the percentage as two numbers, of which
the second is printed without its first digit, `/repo/c/example.c:151-182`. -/
def report (len size : Nat) : List (List UInt8) :=
  [atoi len, atoi size, atoi (size * 100 % 2 ^ 64 / len), (atoi ((size * 1000000 % 2 ^ 64 + len / 2) % 2 ^ 64 / len % 10000 + 10000)).drop 1]

end Divans.CVec
