#!/usr/bin/env python3
"""Write AXIOMS.md: the axioms every property theorem depends on, as printed by Lean."""
import json, re, subprocess, os
root = os.path.dirname(os.path.dirname(os.path.abspath(__file__)))
ths = [t for c in json.load(open(root + '/MANIFEST.json'))['claims'] for t in c['theorems']]
q = '/tmp/axioms_query.lean'
open(q, 'w').write('import Verif\n' + ''.join('#print axioms %s\n' % t for t in ths))
out = subprocess.run(['lake', 'env', 'lean', q], cwd=root + '/lean', capture_output=True, text=True).stdout
by = {}
for t in ths:
    m = re.search(r"'%s' (does not depend on any axioms|depends on axioms: \[([^\]]*)\])" % re.escape(t), out)
    ax = 'none' if m.group(2) is None else ', '.join(sorted(m.group(2).replace('\n', ' ').split(', ')))
    by.setdefault(ax, []).append(t)
with open(root + '/AXIOMS.md', 'w') as f:
    f.write('# Axioms per property theorem\n\nGenerated by `tools/axioms.py` from `#print axioms`.\n')
    for ax in sorted(by, key=len):
        f.write('\n## %s\n\n' % ax)
        for t in by[ax]: f.write('* `%s`\n' % t)
print({k: len(v) for k, v in by.items()})
