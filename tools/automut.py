#!/usr/bin/env python3
"""Random operator mutations of the model: generates edits (comparison, arithmetic, boolean, list operators, dropped
updates) of lines of Verif/Model/*.lean, and for each rebuilds a scratch copy until the first error.
Usage: automut.py <scratch> <deps.json> <out.jsonl> <seed> <count>"""
import json, re, subprocess, sys, os, random, glob
scratch, deps, out, seed, count = sys.argv[1:6]
D = json.load(open(deps)); bymod = {}
for d in D: bymod.setdefault(d['module'], []).append(d)
def locate(path, line):
    best = None
    for d in bymod.get(path[:-5].replace('/', '.'), []):
        if d['line'] <= line <= d['end']:
            if best is None or d['end'] - d['line'] < best['end'] - best['line'] or len(d['name']) < len(best['name']): best = d
    return best
OPS = [(r' < ', ' ≤ '), (r' ≤ ', ' < '), (r' > ', ' ≥ '), (r' ≥ ', ' > '), (r' \+ 1\b', ''), (r' - 1\b', ''),
  (r' \+ (?!1\b)', ' - '), (r' - (?!1\b)', ' + '), (r' && ', ' || '), (r' \|\| ', ' && '), (r' ∧ ', ' ∨ '), (r' ∨ ', ' ∧ '),
  (r'\btrue\b', 'false'), (r'\bfalse\b', 'true'), (r'\bif (?!let|h)', 'if ¬ '), (r'\.take ', '.drop '), (r'\.drop ', '.take '),
  (r'\.reverse\b', ''), (r' \+\+ (\S+)$', ''), (r'(\S+) \+\+ ', ''), (r'\.fst\b', '.snd'), (r' 0\b', ' 1'), (r' 1\b', ' 0'),
  (r'\.any\b', '.all'), (r'\.all\b', '.any'), (r'\.shared\b', '.excl'), (r'\.excl\b', '.shared'), (r' = ', ' ≠ '), (r' ≠ ', ' = '),
  (r'\.isSome\b', '.isNone'), (r'\.isNone\b', '.isSome'), (r'\.head\?', '.getLast?'), (r'\.getLast\?', '.head?'), (r'\bmin\b','max'),(r'\bmax\b','min'),
  (r'(\w+) := [^,}]+, ', ''), (r', (\w+) := [^,}]+(?= })', ''), (r'\.filter\b fun (\w+) => ', r'.filter fun \1 => !'), (r' \* ', ' + '), (r' / ', ' * '), (r' % ', ' / ')]
cands = []
for f in sorted(glob.glob(os.path.join(scratch, 'Verif/Model/*.lean'))):
    src = open(f).read().split('\n'); incom = False; defn = None; isdef = False
    for i, l in enumerate(src):
        t = l
        if not incom and '/-' in t:
            incom = '-/' not in t.split('/-', 1)[1]; continue
        if incom:
            if '-/' in t: incom = False
            continue
        m = re.match(r'(?:@\[[^\]]*\] )?(?:private )?(def|abbrev|instance|structure|inductive|theorem|example|lemma|class|opaque|namespace|variable|open|end|import|macro|notation)\b\s*(\S*)', t)
        if m: isdef = m.group(1) == 'def'; defn = m.group(2)
        if not isdef or t.strip().startswith('--') or t.startswith('termination') or t.strip().startswith('decreasing'): continue
        body = t
        if m and ':=' not in t and ' where' not in t: continue
        start = t.find(':=') + 2 if m and ':=' in t else 0
        for pat, rep in OPS:
            for x in re.finditer(pat, t):
                if x.start() < start: continue
                new = t[:x.start()] + x.expand(rep) + t[x.end():]
                if new != t: cands.append((os.path.relpath(f, os.path.join(scratch, 'Verif')), i, t, new, defn, (x.group(0) + ' → ' + x.expand(rep))))
random.Random(int(seed)).shuffle(cands)
print(len(cands), 'candidates', flush=True)
seen = set()
if os.path.exists(out): seen = {json.loads(l)['n'] for l in open(out)}
k = 0
for c in cands:
    if k >= int(count): break
    file, i, old, new, defn, edit = c
    n = f'A{seed}:{file}:{i+1}:{edit}'
    if n in seen: continue
    k += 1
    path = os.path.join(scratch, 'Verif', file); src = open(path).read(); ls = src.split('\n')
    if ls[i] != old: continue
    ls[i] = new; open(path, 'w').write('\n'.join(ls))
    first = None
    try:
        p = subprocess.Popen(['lake', 'build'], cwd=scratch, stdout=subprocess.PIPE, stderr=subprocess.STDOUT, text=True, start_new_session=True)
        for line in p.stdout:
            m = re.match(r'error: (Verif/\S+?\.lean):(\d+):\d+', line)
            if m:
                first = m
                import signal; os.killpg(p.pid, signal.SIGKILL); break
        rc = p.wait()
    finally:
        open(path, 'w').write(src)
    if first: 
        d = locate(first.group(1), int(first.group(2)))
        if first.group(1) == 'Verif/' + file: res = 'model_error'; d = None
        else: res = 'killed'
        rec = dict(n=n, file=file, definition=defn, old=old.strip(), new=new.strip(), result=res, at=(d['name'] if d else first.group(1)), claims=(d['claims'] if d else []))
    else:
        rec = dict(n=n, file=file, definition=defn, old=old.strip(), new=new.strip(), result='survived' if rc == 0 else 'error', at=None, claims=[])
    open(out, 'a').write(json.dumps(rec, ensure_ascii=False) + '\n')
    print(rec['result'], file, i+1, defn, '|', new.strip()[:100], '|', rec['at'], flush=True)
