#!/usr/bin/env python3
"""Writes MANIFEST.json from the table below, after checking that every theorem named exists."""
import json, re, pathlib
ROOT = pathlib.Path('/verif')
CLAIMS = {}
def claim(p, status, theorems, note):
    CLAIMS[p] = dict(property=p, status=status, theorems=theorems, note=note)
A = 'Byoc.ArrayProps.'
B = 'Byoc.BTreeProps.'
claim('C01', 'proved', [A+'C01_array_bounded'], 'all capacities, size functions, sorting routines, histories')
claim('C02', 'proved', [A+'C02_array_conserves_history', A+'C02_array_conserves_call'], '')
claim('C03', 'proved', [A+'C03_array_size'], '')
claim('C04', 'proved', [A+'C04_array_push'], '')
claim('C05', 'proved', [A+'C05_array_pop'], '')
claim('C06', 'proved', [A+'C06_array_take', A+'C06_array_take_multiple'], '')
claim('C07', 'proved', [B+'C07_btree_contract', B+'C07_btree_lookup'], '')
claim('C08', 'proved', [B+'C08_btree_one_per_key', B+'C08_btree_push', B+'C08_btree_push_fits'], '')
claim('C09', 'proved', [B+'C09_btree_pop'], '')
claim('C10', 'partial', [B+'C10_partial', B+'C10_false', B+'C10_loses']+['Byoc.BTreeRcProps.'+x for x in ['C10_any_partial','C10_distinct_partial','C10_pop_panics','C10_overfull','C10_wrong_victim','C10_rc_false']], 'The full statement (C10_full, C10_rc_full) is false of the code: refuted by C10_false, C10_rc_false. Proved for distinct keys; for any batch, exactly what is lost while no call panics, and which calls never panic (model with reference counters).')
exec(open(ROOT/'tools/claims_more.py').read()) if (ROOT/'tools/claims_more.py').exists() else None
# check
names = set()
for f in (ROOT/'lean').rglob('*.lean'):
    if '.lake' in str(f): continue
    ns = []
    for line in f.read_text().splitlines():
        m = re.match(r'namespace (\S+)', line)
        if m: ns.append(m.group(1)); continue
        m = re.match(r'end (\S+)', line)
        if m and ns and ns[-1] == m.group(1): ns.pop(); continue
        m = re.match(r'(?:@\[[^\]]*\] )?(?:private )?(?:theorem|def|lemma) (\S+)', line)
        if m: names.add('.'.join(ns+[m.group(1)]))
for c in CLAIMS.values():
    for t in c['theorems']:
        assert t in names, t
json.dump({'claims': [CLAIMS[k] for k in sorted(CLAIMS)]}, open(ROOT/'MANIFEST.json','w'), indent=1)
print(len(CLAIMS), 'claims')
