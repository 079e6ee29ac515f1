#!/usr/bin/env python3
"""Mutation tests of the theorems.

usage: mutate.py MUTATIONS.json [--log]

Each mutation is {"file", "def", "old", "new", "edit", "claim"}: in a scratch copy of the Lean
project the text `old` is replaced by `new` in lean/Verif/<file>.lean and the project is rebuilt.
The theorems whose proofs fail are reported (and appended to seeded/LOG.jsonl with --log).
"""
import json, os, re, shutil, subprocess, sys
ROOT = os.path.dirname(os.path.dirname(os.path.abspath(__file__)))
SCRATCH = "/tmp/mut-%d" % os.getpid()

def decl_at(path, line):
    ns, name = [], "?"
    pat = re.compile(r"^(?:@\[.*\]\s*)?(?:private |protected |noncomputable )*(theorem|lemma|def|example|instance|abbrev|structure|inductive)\s*(\S*)")
    for i, l in enumerate(open(path), 1):
        if i > line: break
        m = re.match(r"namespace (\S+)", l)
        if m: ns.append(m.group(1))
        m = pat.match(l)
        if m:
            name = ".".join(ns + [m.group(2)]) if m.group(1) != "example" else ".".join(ns + ["example@%d" % i])
    return name

def main():
    muts = json.load(open(sys.argv[1]))
    log = "--log" in sys.argv
    os.makedirs(SCRATCH, exist_ok=True)
    subprocess.run(["cp", "-a", ROOT + "/lean", SCRATCH + "/base"], check=True)
    for m in muts:
        shutil.rmtree(SCRATCH + "/lean", ignore_errors=True)
        subprocess.run(["cp", "-a", SCRATCH + "/base", SCRATCH + "/lean"], check=True)
        path = f"{SCRATCH}/lean/Verif/{m['file']}.lean"
        s = open(path).read()
        if s.count(m["old"]) != 1:
            print("BAD MUTATION (occurrences: %d)" % s.count(m["old"]), m["def"], repr(m["old"])); continue
        open(path, "w").write(s.replace(m["old"], m["new"]))
        try:
            r = subprocess.run(["lake", "build"], cwd=SCRATCH + "/lean", capture_output=True, text=True, timeout=1500)
            out = r.stdout + r.stderr
        except subprocess.TimeoutExpired as e:
            out = (e.stdout or b"").decode() + "\nerror: timeout"
        failed = []
        for f, l in re.findall(r"error: (Verif/\S+\.lean):(\d+):\d+", out):
            d = decl_at(f"{SCRATCH}/lean/{f}", int(l))
            if d not in failed: failed.append(d)
        if "error" in out and not failed: failed = ["(build failed: %s)" % out[-200:]]
        entry = {"definition": m["def"], "file": "lean/Verif/%s.lean" % m["file"], "edit": m["edit"], "old": m["old"], "new": m["new"], "claim": m["claim"],
                 "failed": failed, "tightened": m.get("tightened", [])}
        print(("SURVIVED " if not failed else "killed   ") + m["def"] + " | " + m["edit"] + " | " + ", ".join(failed[:4]), flush=True)
        if log:
            open(ROOT + "/seeded/LOG.jsonl", "a").write(json.dumps(entry) + "\n")
    shutil.rmtree(SCRATCH, ignore_errors=True)
main()
