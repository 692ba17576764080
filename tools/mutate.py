#!/usr/bin/env python3
"""Apply each seeded bug to a scratch copy of the Lean project, rebuild, and log
which theorems stop proving.

usage: mutate.py MUTATIONS.json [--log LOG.jsonl] [--only SUBSTR]

Each mutation: {"file", "def", "old", "new", "claim", "tightened": []}; `old` must
occur exactly once in `file` (relative to lean/), or `nth` says which occurrence.
`also` lists further edits {"file", "old", "new"} made at the same time: in the Arc model,
`PStep` repeats the model case by case and is edited along with it, so that what fails is
more than the lemma that relates the two.
`witness` is Lean code that is compiled against the edited model (importing the module
`imports`, by default Verif.Arc.Spec) and shows that the statement of the theorem named in
`refutes` is false of it: then not only a proof script has broken.
Theorems of modules that depend on a failing one are not rebuilt and not listed;
`failed` names the theorems in which the errors of the build lie.
"""
import json, os, re, shutil, subprocess, sys
SRC = os.environ.get("SRC", "/verif/lean")
DST = "/tmp/scratch/lean"

def decls(path):
    out = []
    ns = []
    for n, l in enumerate(open(path), 1):
        m = re.match(r"(?:private |protected |@\[[^\]]*\] )*(theorem|def|example|instance|inductive|structure|abbrev)\s*([^\s:({\[]*)", l)
        if m: out.append((n, m.group(2) or m.group(1)))
    return out

def enclosing(path, line):
    name = "?"
    for n, d in decls(path):
        if n <= line: name = d
        else: break
    return name

def main():
    muts = json.load(open(sys.argv[1]))
    log = sys.argv[sys.argv.index("--log") + 1] if "--log" in sys.argv else None
    only = sys.argv[sys.argv.index("--only") + 1] if "--only" in sys.argv else None
    os.makedirs("/tmp/scratch", exist_ok=True)
    for mu in muts:
        if only and only not in mu["def"] + mu["claim"]: continue
        subprocess.run(["rsync", "-a", "--delete", SRC + "/", DST + "/"], check=True) if shutil.which("rsync") else (
            shutil.rmtree(DST, ignore_errors=True), subprocess.run(["cp", "-a", SRC, DST], check=True))
        ok = True
        for ed in [mu] + mu.get("also", []):
            p = os.path.join(DST, ed["file"])
            s = open(p).read()
            k = s.count(ed["old"])
            if k == 0 or (k > 1 and "nth" not in ed):
                print("!! pattern occurs", k, "times:", mu["def"], ed["old"]); ok = False; break
            i = -1
            for _ in range(ed.get("nth", 0) + 1): i = s.index(ed["old"], i + 1)
            open(p, "w").write(s[:i] + ed["new"] + s[i + len(ed["old"]):])
        if not ok: continue
        r = subprocess.run(["lake", "build"], cwd=DST, capture_output=True, text=True)
        txt = r.stdout + r.stderr
        failed = []
        for m in re.finditer(r"error: (Verif/[\w/]+\.lean):(\d+):", txt):
            d = enclosing(os.path.join(DST, m.group(1)), int(m.group(2)))
            d = m.group(1)[6:-5].replace("/", ".") + ":" + d
            if d not in failed: failed.append(d)
        row = {"definition": mu["def"], "edit": f"{mu['old']!r} -> {mu['new']!r}", "claim": mu["claim"],
               "theorems_failed": failed, "theorems_tightened": mu.get("tightened", [])}
        if mu.get("witness"):
            imp = mu.get("imports", "Verif.Arc.Spec")
            w = f"import {imp}\n" + open(os.path.join(os.path.dirname(os.path.abspath(sys.argv[1])), mu.get("inc", "witness.lean.inc"))).read() + mu["witness"] + "\n"
            open("/tmp/scratch/w.lean", "w").write(w)
            subprocess.run(["lake", "build", imp], cwd=DST, capture_output=True)
            q = subprocess.run(["lake", "env", "lean", "/tmp/scratch/w.lean"], cwd=DST, capture_output=True, text=True)
            good = q.returncode == 0 and "sorry" not in q.stdout
            row["refuted"] = mu["refutes"] if good else "?"
            row["witness"] = mu["witness"]
            print("   witness", "OK" if good else "FAILS " + q.stdout[:1500], flush=True)
        if mu.get("note"): row["note"] = mu["note"]
        print(("SURVIVED " if r.returncode == 0 else "killed ") + mu["def"] + " :: " + mu["claim"] + " :: " + ", ".join(failed[:4]), flush=True)
        if log:
            with open(log, "a") as f: f.write(json.dumps(row) + "\n")
main()
