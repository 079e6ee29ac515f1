import Verif.CrcTable

/-
Model of the container checksum, /repo/src/codec/crc32.rs (the portable path, which is the one used
without the `simd` feature).  `u32` values are natural numbers below `2^32`.
-/
namespace Divans.Crc

/-- `TABLE16[k][i]`, /repo/src/codec/crc32_table.rs:17-578. -/
def table (k i : Nat) : Nat := ((table16Packed.getD k 0) >>> (32 * i)) % 2 ^ 32

/-- `!crc` on `u32`. -/
def not32 (x : Nat) : Nat := x ^^^ 0xffffffff

/-- `buf[i]`. -/
def byteAt (buf : List UInt8) (i : Nat) : Nat := (buf.getD i 0).toNat

/-- Body of the 16-byte loop, /repo/src/codec/crc32.rs:42-58. -/
def block (crc0 : Nat) (buf : List UInt8) : Nat :=
  let b := byteAt buf
  let crc := crc0 ^^^ (b 0 ||| (b 1 <<< 8) ||| (b 2 <<< 16) ||| (b 3 <<< 24))
  table 0 (b 15) ^^^ table 1 (b 14) ^^^ table 2 (b 13) ^^^ table 3 (b 12) ^^^
    table 4 (b 11) ^^^ table 5 (b 10) ^^^ table 6 (b 9) ^^^ table 7 (b 8) ^^^
    table 8 (b 7) ^^^ table 9 (b 6) ^^^ table 10 (b 5) ^^^ table 11 (b 4) ^^^
    table 12 ((crc >>> 24) % 256) ^^^ table 13 ((crc >>> 16) % 256) ^^^
    table 14 ((crc >>> 8) % 256) ^^^ table 15 (crc % 256)

/-- `while buf.len() >= 16`, /repo/src/codec/crc32.rs:41-59; the first argument bounds the number of
rounds (`update` passes the length). -/
def blocks : Nat → Nat → List UInt8 → Nat × List UInt8
  | 0, crc, buf => (crc, buf)
  | n + 1, crc, buf =>
    if 16 ≤ buf.length then blocks n (block crc buf) (buf.drop 16) else (crc, buf)

/-- The bytewise loop, /repo/src/codec/crc32.rs:60-62. -/
def tailStep (crc : Nat) (b : UInt8) : Nat := table 0 ((crc % 256) ^^^ b.toNat) ^^^ (crc >>> 8)

/-- `fallback_crc32c_update`, /repo/src/codec/crc32.rs:38-64. -/
def update (crc : Nat) (buf : List UInt8) : Nat :=
  let r := blocks buf.length (not32 crc) buf
  not32 (r.2.foldl tailStep r.1)

/-- `crc32c_init`, /repo/src/codec/crc32.rs:17-19. -/
def init : Nat := 0

end Divans.Crc
