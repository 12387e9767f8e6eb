#!/usr/bin/env python3
"""Write seeded/LOG.jsonl from the results of tools/mutate.py (seeded/results*.jsonl)."""
import json, glob, re, os
os.chdir(os.path.join(os.path.dirname(__file__), '..'))
OVER = json.load(open('seeded/claims.json'))  # mutant -> claim broken; tightened theorems; note
n = 0
with open('seeded/LOG.jsonl', 'w') as out:
    for f in sorted(glob.glob('seeded/results*.jsonl')):
        for l in open(f):
            d = json.loads(l); o = OVER.get(d['n'], {})
            rec = dict(mutant=d['n'], definition=d['definition'], edit=d['edit'],
                       claim=o.get('claim', d['claim']),
                       survived=d['survived'],
                       theorems_failed=d['direct'], properties_failed=d['properties'],
                       theorems_tightened=o.get('tightened', []))
            if 'note' in o: rec['note'] = o['note']
            out.write(json.dumps(rec) + '\n'); n += 1
    # random edits of tools/automut.py: the build stops at the first failing declaration, whose dependent claims are listed
    for f in sorted(glob.glob('seeded/auto*.jsonl')):
        for l in open(f):
            d = json.loads(l); o = OVER.get(d['n'], {})
            if d['result'] not in ('killed', 'survived'): continue
            rec = dict(mutant=d['n'], definition=d['definition'], edit=d['old'] + '  ==>  ' + d['new'],
                       claim=o.get('claim', 'of the properties listed' if d['result'] == 'killed' else ''),
                       survived=d['result'] == 'survived',
                       theorems_failed=[d['at']] if d['at'] else [], properties_failed=d['claims'],
                       theorems_tightened=o.get('tightened', []))
            if 'note' in o: rec['note'] = o['note']
            out.write(json.dumps(rec) + '\n'); n += 1
print(n, 'lines')
