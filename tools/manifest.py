#!/usr/bin/env python3
"""Collect the theorems named C<number>_* from lean/Verif/Prop and write MANIFEST.json.
Notes per property come from tools/notes.json."""
import json, os, re
root = os.path.dirname(os.path.dirname(os.path.abspath(__file__)))
notes = json.load(open(os.path.join(root, 'tools', 'notes.json')))
ths = {}
for d, _, fs in os.walk(os.path.join(root, 'lean', 'Verif', 'Prop')):
    for f in sorted(fs):
        if not f.endswith('.lean'): continue
        ns = []
        for line in open(os.path.join(d, f)):
            m = re.match(r'namespace (\S+)', line)
            if m: ns.append(m.group(1))
            m = re.match(r'end (\S+)', line)
            if m and ns and ns[-1] == m.group(1): ns.pop()
            m = re.match(r'theorem (C(\d+)_\w+)', line)
            if m:
                ths.setdefault('C%02d' % int(m.group(2)), []).append('.'.join(ns + [m.group(1)]))
ids = [json.loads(l)['id'] for l in open(os.path.join(root, 'properties.jsonl')) if l.strip()]
claims = []
for i in ids:
    n = notes.get(i, {})
    t = ths.get(i, [])
    st = n.get('status') or ('proved' if t else None)
    if st is None: continue
    claims.append({'property': i, 'status': st, 'theorems': t, 'note': n.get('note', '')})
unknown = set(ths) - set(ids)
if unknown: print('theorems for unknown properties:', unknown)
json.dump({'claims': claims}, open(os.path.join(root, 'MANIFEST.json'), 'w'), indent=1, ensure_ascii=False)
print(len(claims), 'claims,', sum(len(c['theorems']) for c in claims), 'theorems; missing:', [i for i in ids if i not in {c['property'] for c in claims}])
