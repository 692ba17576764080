#!/usr/bin/env python3
"""Write COVERAGE.md: for every function of /repo outside of tests, the definitions of the model whose comments cite it."""
import glob, os, re, sys

REPO = '/repo/src'
LEAN = os.path.join(os.path.dirname(__file__), '..', 'lean', 'Verif')
OUT = os.path.join(os.path.dirname(__file__), '..', 'COVERAGE.md')

files = {}
for f in sorted(glob.glob(REPO + '/**/*.rs', recursive=True)):
    rel = os.path.relpath(f, REPO)
    files[rel] = open(f).read().split('\n')
base = {}
for rel in files:
    base.setdefault(os.path.basename(rel), []).append(rel)

def spans(lines):
    out, i = [], 0
    while i < len(lines):
        l = lines[i]
        if '#[cfg(test)]' in l:
            break
        m = re.search(r'\bfn (\w+)', l)
        if m and not l.strip().startswith('//'):
            depth, j, seen = 0, i, False
            while j < len(lines):
                depth += lines[j].count('{') - lines[j].count('}')
                seen |= '{' in lines[j]
                if (seen and depth <= 0) or (not seen and lines[j].rstrip().endswith(';')):
                    break
                j += 1
            out.append((m.group(1), i + 1, j + 1))
        i += 1
    return out

def owner(lines, i):
    for k in range(i - 1, -1, -1):
        m = re.match(r'\s*(?:unsafe )?(?:impl|trait|pub trait)\b(.*?)\{?\s*$', lines[k])
        if m:
            s = re.sub(r"^<(?:[^<>]|<[^<>]*>)*>\s*", '', m.group(1).strip())
            s = s.split(' where')[0].strip().rstrip('{').strip()
            return s
    return ''

cites = {rel: {} for rel in files}
tok = re.compile(r'((?:[a-z_]+/)*[a-z_]+\.rs)|(?<![\w.])(\d+)(?:[-–](\d+))?(?![\w.]*\w)')
for f in sorted(glob.glob(LEAN + '/**/*.lean', recursive=True)):
    text = open(f).read()
    mod = os.path.relpath(f, LEAN)[:-5]
    ns, decl = [], None
    # every line belongs to the declaration that follows a doc comment, or that it is in
    pend, chunks = '', []
    for m in re.finditer(
            r'(/--(?:(?!-/).)*-/)|^namespace (\S+)|^end (\S+)|^(?:@\[[^\]]*\]\s*)?(?:private |protected |noncomputable |partial )*(def|structure|inductive|abbrev|class|instance|theorem|example)\s+(\S+)|(--[^\n]*)', text, re.S | re.M):
        if m.group(2): ns.append(m.group(2)); continue
        if m.group(3):
            if ns and ns[-1] == m.group(3): ns.pop()
            decl = None; continue
        if m.group(4):
            full = '.'.join([n for n in ns if n != 'Verif'] + [m.group(5)]).replace('Verif.', '').replace('_root_.', '')
            decl = None if m.group(4) in ('theorem', 'example') else full
            if decl and pend: chunks.append((decl, pend))
            pend = ''; continue
        c = m.group(1) or m.group(6)
        start = text.rfind('\n', 0, m.start()) + 1
        if m.group(1) and start == m.start(): pend = c
        elif decl: chunks.append((decl, c))
    for name, c in chunks:
        cur = None
        for t in tok.finditer(c):
            if t.group(1):
                n = t.group(1)
                cur = [r for r in files if r == n or r.endswith('/' + n)]
                cur = [r for r in cur if r.startswith('arc/' if mod.startswith('Arc') else 'rc/')] or cur if len(cur) > 1 else cur
            elif cur:
                lo = int(t.group(2)); hi = int(t.group(3) or lo)
                if lo <= hi <= 700 and hi - lo < 200:
                    for r in cur: cites[r].setdefault(name, []).append((lo, hi))

rows, bare = [], 0
for rel, lines in files.items():
    sp = spans(lines)
    if not sp: continue
    rows.append(f'\n## src/{rel}\n\n| lines | function | definitions |\n|---|---|---|')
    for name, lo, hi in sp:
        ds = []
        for d, rs in cites[rel].items():
            best = min((abs(a - lo) + abs(b - hi) for a, b in rs if a <= hi and lo <= b), default=None)
            if best is not None: ds.append((best, d))
        ds = [d for _, d in sorted(ds, key=lambda t: t[0])]
        if not ds: bare += 1
        shown = ', '.join(f'`{d}`' for d in ds[:5]) + (f' and {len(ds) - 5} more' if len(ds) > 5 else '')
        o = owner(lines, lo - 1)
        rows.append(f'| {lo}-{hi} | `{(o + "::") if o else ""}{name}` | {shown or "(none)"} |')
open(OUT, 'w').write('# From the code to the model\n\nFor every function of `/repo` outside of tests: the definitions under `lean/Verif` whose comments cite lines of it, '
    'the closest first. Generated by `tools/gen_coverage.py`.\n' + '\n'.join(rows) + '\n')
print(sum(1 for r in rows if r.startswith('| ')), 'functions,', bare, 'not cited')
