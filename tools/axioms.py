#!/usr/bin/env python3
"""Write AXIOMS.md: the axioms of every theorem named in MANIFEST.json, as printed by #print axioms."""
import json, os, re, subprocess, tempfile
root = os.path.abspath(os.path.join(os.path.dirname(__file__), '..'))
claims = json.load(open(root + '/MANIFEST.json'))['claims']
names = [t for c in claims for t in c['theorems']]
with tempfile.TemporaryDirectory() as d:
    p = d + '/Ax.lean'
    open(p, 'w').write('import Verif\n' + ''.join(f'#print axioms {n}\n' for n in names))
    out = subprocess.run(['lake', 'env', 'lean', p], cwd=root + '/lean', capture_output=True, text=True).stdout
out = re.sub(r'\n\s+', ' ', out)
ax = {}
for m in re.finditer(r"'([^']+(?:'[^' ]*)*)' (does not depend on any axioms|depends on axioms: \[([^\]]*)\])", out):
    ax[m.group(1)] = (m.group(3) or 'none').strip()
missing = [n for n in names if n not in ax]
with open(root + '/AXIOMS.md', 'w') as f:
    f.write('# Axioms per theorem (output of `#print axioms`, written by tools/axioms.py)\n\n| theorem | axioms |\n|---|---|\n')
    for n in names:
        f.write(f"| `{n}` | {ax.get(n, '?')} |\n")
print(len(names), 'theorems;', len(missing), 'missing', missing[:5], sorted(set(ax.values())))
