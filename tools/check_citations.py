#!/usr/bin/env python3
"""Check the citations of /repo in the Lean files: `file.rs:L1-L2 `name`` must be lines of that file,
and the identifiers of `name` must occur in them (`fn name`, a type or a trait)."""
import os, re, sys, glob
REPO = "/repo"
files = {}
for p in glob.glob(REPO + "/**/*.rs", recursive=True):
    files.setdefault(os.path.basename(p), []).append(p)
bad = n = 0
for p in sorted(glob.glob("/verif/lean/**/*.lean", recursive=True)):
    if "/.lake/" in p: continue
    txt = open(p).read()
    # comments only
    for m in re.finditer(r"/-[-!]?(.*?)-/|--([^\n]*)", txt, re.S):
        com = m.group(1) or m.group(2) or ""
        line0 = txt.count("\n", 0, m.start()) + 1
        last = None
        for c in re.finditer(r"(?:([\w/]+\.rs):|(?<![\w.:/-]))(\d+)(?:-(\d+))?(?:\s+`([^`]+)`)?", com):
            f, a, b, name = c.group(1) or last, int(c.group(2)), int(c.group(3) or c.group(2)), c.group(4)
            if not f or not (c.group(1) or name): continue
            last = f
            n += 1
            cand = [q for q in files.get(os.path.basename(f), []) if q.endswith("/" + f)]
            where = f"{p[12:]}:{line0}"
            if not cand:
                print(where, "no such file", f); bad += 1; continue
            hits = []
            for q in cand:
                ls = open(q).read().split("\n")
                ids = re.findall(r"[A-Za-z_]\w*", name or "")
                hits.append(a <= b <= len(ls) and (not ids or re.search(r"\b" + re.escape(ids[-1]) + r"\b", "\n".join(ls[a - 1:b]))))
            if not any(hits):
                print(where, " ".join(c.group(0).split()), f"| {f}:{a}:", ls[a - 1].strip()[:70] if a <= len(ls) else ""); bad += 1
print(n, "citations,", bad, "doubtful")
