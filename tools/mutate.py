#!/usr/bin/env python3
"""Mutation harness: apply each edit of a mutation list to a scratch copy of the Lean project, rebuild,
record which theorems fail.  Usage: mutate.py <scratch> <deps.json> <mutants.py> <out.jsonl>
(deps.json maps declarations to line ranges and to the property theorems that depend on them; it is
produced by tools/Deps.lean.txt)."""
import json, re, subprocess, sys, os, runpy
scratch, deps, muts, out = sys.argv[1:5]
D = json.load(open(deps))
bymod = {}
for d in D: bymod.setdefault(d['module'], []).append(d)
def locate(path, line):
    mod = path[:-5].replace('/', '.')
    best = None
    for d in bymod.get(mod, []):
        if d['line'] <= line <= d['end']:
            if best is None or d['end'] - d['line'] < best['end'] - best['line'] or len(d['name']) < len(best['name']): best = d
    return best
def build():
    p = subprocess.run(['lake', 'build'], cwd=scratch, capture_output=True, text=True)
    return p.returncode, p.stdout + p.stderr
M = runpy.run_path(muts)['M']
done = set()
if os.path.exists(out):
    done = {json.loads(l)['n'] for l in open(out)}
for m in M:
    n, file, old, new, defn, edit, claim = m[:7]
    nth = m[7] if len(m) > 7 else None
    if n in done: continue
    path = os.path.join(scratch, 'Verif', file)
    src = open(path).read()
    c = src.count(old)
    if c == 0 or (c > 1 and nth is None):
        print(n, 'BAD occurrence count', c, file, repr(old)[:60]); continue
    if nth is None: mut = src.replace(old, new)
    else:
        parts = src.split(old)
        mut = old.join(parts[:nth+1]) + new + old.join(parts[nth+1:])
    open(path, 'w').write(mut)
    try:
        rc, log = build()
    finally:
        open(path, 'w').write(src)
    errs = re.findall(r'error: (Verif/\S+?\.lean):(\d+):\d+', log)
    modelerr = any(f'Verif/{file}' == e[0] for e in errs)
    direct, claims = [], set()
    others = set()
    for f, l in errs:
        d = locate(f, int(l))
        if d:
            if d['name'] not in direct: direct.append(d['name'])
            claims.update(d['claims'])
        else: others.add(f + ':' + l)
    rec = dict(n=n, definition=defn, edit=edit, claim=claim, survived=(rc == 0), model_error=modelerr,
               direct=direct, properties=sorted(claims), unlocated=sorted(others))
    open(out, 'a').write(json.dumps(rec) + '\n')
    print(n, 'SURVIVED' if rc == 0 else ('MODELERR' if modelerr else 'killed'), direct[:4], len(claims), flush=True)
