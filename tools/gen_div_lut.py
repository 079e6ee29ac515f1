#!/usr/bin/env python3
"""Writes lean/Verif/DivLut.lean from the text of /repo/src/probability/div_lut.rs.

The table entries are copied, not recomputed: the Lean file proves that they equal the formula."""
import re
src = open('/repo/src/probability/div_lut.rs').read()
a = src.index('RECIPROCAL8'); b = src.index('RECIPROCAL:')
t8 = [int(x) for x in re.findall(r'-?\d+', src[src.index('= [', a) + 3:src.index('];', a)])]
t16 = [(int(x), int(y)) for x, y in
       re.findall(r'\((-?\d+),\s*(-?\d+)\)', src[src.index('= [', b) + 3:src.index('];', b)])]
assert len(t8) == 256 and len(t16) == 65536
assert all(0 <= x < 2**32 for x in t8) and all(0 <= x < 2**32 and 0 <= y < 256 for x, y in t16)
out = ['''/-
The reciprocal tables of /repo/src/probability/div_lut.rs, copied entry by entry by
tools/gen_div_lut.py.  To keep the file small the entries are packed: 256 consecutive entries
`(mul, shift)` of `RECIPROCAL` form one number whose base-2^40 digits are `mul * 256 + shift`, least
significant first; the entries of `RECIPROCAL8` are the base-2^32 digits of one number.
-/
namespace Divans.Num

/-- `RECIPROCAL8`, /repo/src/probability/div_lut.rs:1-18. -/
def reciprocal8Packed : Nat :=
  0x%x

/-- Entry `d` of `RECIPROCAL8`. -/
def reciprocal8 (d : Nat) : Nat := (reciprocal8Packed >>> (32 * d)) %% 2 ^ 32

/-- `RECIPROCAL`, /repo/src/probability/div_lut.rs:19 to the end. -/
def reciprocalPacked : List Nat := [''' % sum(x << (32 * i) for i, x in enumerate(t8))]
for k in range(256):
    v = sum((x * 256 + y) << (40 * i) for i, (x, y) in enumerate(t16[256 * k:256 * k + 256]))
    out.append('  0x%x%s' % (v, ',' if k < 255 else ']'))
out.append('''
/-- The packed word of entry `d` of `RECIPROCAL`. -/
def reciprocalWord (d : Nat) : Nat :=
  ((reciprocalPacked.getD (d / 256) 0) >>> (40 * (d % 256))) % 2 ^ 40

/-- Entry `d` of `RECIPROCAL`: multiplier and shift. -/
def reciprocal (d : Nat) : Nat × Nat := (reciprocalWord d / 256, reciprocalWord d % 256)

end Divans.Num
''')
open('/verif/lean/Verif/DivLut.lean', 'w').write('\n'.join(out))
