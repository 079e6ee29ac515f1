#!/usr/bin/env python3
"""Copies TABLE16 of /repo/src/codec/crc32_table.rs into lean/Verif/CrcTable.lean (packed)."""
import re
s = open("/repo/src/codec/crc32_table.rs").read()
body = s[s.index("pub static TABLE16"):]
body = body[:body.index("];\n")]
rows = re.findall(r"\[\s*((?:0x[0-9a-f]+,\s*)+)\]", body)
assert len(rows) == 16
out = ['''/-
Generated by tools/gen_crc_table.py from /repo/src/codec/crc32_table.rs:17-578.
-/
namespace Divans.Crc

/-- `TABLE16`, /repo/src/codec/crc32_table.rs:17-578: row `k` is packed into one number, entry `i` in
bits `32 i .. 32 i + 31`. -/
def table16Packed : List Nat := [''']
lst = []
for r in rows:
    v = [int(x, 16) for x in re.findall(r"0x[0-9a-f]+", r)]
    assert len(v) == 256
    lst.append("  0x%x" % sum(x << (32 * i) for i, x in enumerate(v)))
out.append(",\n".join(lst) + "]\n")
out.append("end Divans.Crc\n")
open("/verif/lean/Verif/CrcTable.lean", "w").write("\n".join(out))
