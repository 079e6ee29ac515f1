import Verif.Num

/-
Model of the eight-byte register queue, `RegisterQueue` in /repo/src/arithmetic_coder.rs:33-81.
-/
namespace Divans.Reg

/-- `RegisterQueue`, /repo/src/arithmetic_coder.rs:33-37. -/
structure Q where
  /-- the `u64` -/
  data : Nat
  /-- bytes in use -/
  count : Nat
deriving Repr, DecidableEq

/-- `default`, /repo/src/arithmetic_coder.rs:38-45. -/
def new : Q := ⟨0, 0⟩

/-- The loop of `push_data`, /repo/src/arithmetic_coder.rs:61-63; `shift` is
`offset + (i << 3)`, at most 56 for the bytes the loop sees, so the shift is in range, and the
register is 64 bits wide. -/
def orBytes (reg shift : Nat) : List UInt8 → Nat
  | [] => reg
  | b :: bs => orBytes ((reg ||| (b.toNat <<< shift)) % 2 ^ 64) (shift + 8) bs

/-- `push_data`, /repo/src/arithmetic_coder.rs:55-66: the queue afterwards and the number of bytes
taken. -/
def push (q : Q) (bs : List UInt8) : Q × Nat :=
  let n := Nat.min (8 - q.count) bs.length
  (⟨orBytes q.data (q.count <<< 3) (bs.take n), q.count + n⟩, n)

/-- The bytes of the register, low byte first, /repo/src/arithmetic_coder.rs:71-74. -/
def bytes (d : Nat) : Nat → List UInt8
  | 0 => []
  | n + 1 => UInt8.ofNat (d &&& 0xff) :: bytes (d >>> 8) n

/-- `pop_data` with room for `len` bytes, /repo/src/arithmetic_coder.rs:67-80.  Shifting a `u64` by
64 panics in a build with overflow checks (`debug`); otherwise the shift amount is taken modulo 64. -/
def pop (debug : Bool) (q : Q) (len : Nat) : Option (Q × List UInt8) :=
  let n := Nat.min q.count len
  if debug && n <<< 3 ≥ 64 then none
  else some (⟨q.data >>> (n <<< 3 % 64), q.count - n⟩, (bytes q.data 8).take n)

/-- `num_push_bytes_avail`, /repo/src/arithmetic_coder.rs:47-50. -/
def room (q : Q) : Nat := 8 - q.count

/-- `num_pop_bytes_avail`, /repo/src/arithmetic_coder.rs:51-54. -/
def avail (q : Q) : Nat := q.count

end Divans.Reg
