#!/usr/bin/env python3
"""List the axioms each theorem named in MANIFEST.json depends on: writes AXIOMS.md.
Needs a finished `lake build`."""
import json, re, subprocess
names = []
for c in json.load(open("/verif/MANIFEST.json"))["claims"]:
    for t in c["theorems"]:
        if t not in names: names.append(t)
src = "import Verif\nopen Verif\n" + "".join(f"#print axioms {n}\n" for n in names)
open("/tmp/axioms.lean", "w").write(src)
r = subprocess.run(["lake", "env", "lean", "/tmp/axioms.lean"], cwd="/verif/lean", capture_output=True, text=True)
txt = re.sub(r"\n\s+", " ", r.stdout)
rows = {}
for l in txt.splitlines():
    m = re.match(r"'(\S+)' depends on axioms: \[(.*)\]", l)
    if m: rows[m.group(1)] = ", ".join(sorted(x.strip() for x in m.group(2).split(",")))
    m = re.match(r"'(\S+)' does not depend", l)
    if m: rows[m.group(1)] = "none"
with open("/verif/AXIOMS.md", "w") as f:
    f.write("# Axioms used by the theorems named in MANIFEST.json\n\nOutput of `tools/gen_axioms.py` (`#print axioms`).\n\n| theorem | axioms |\n|---|---|\n")
    for n in names:
        f.write(f"| `{n}` | {rows.get(n, '?')} |\n")
print(len(names), sum(n not in rows for n in names), sorted(set(rows.values())))
print(r.stderr[-500:])
