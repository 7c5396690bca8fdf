#!/usr/bin/env python3
"""Write /verif/AXIOMS.md: the axioms every theorem named in MANIFEST.json depends on (needs a finished `lake build`)."""
import json, re, subprocess, tempfile, os
m = json.load(open('/verif/MANIFEST.json'))
names = [(c['property'], t) for c in m['claims'] for t in c['theorems']]
with tempfile.TemporaryDirectory() as d:
    f = os.path.join(d, 'Ax.lean')
    with open(f, 'w') as o:
        o.write('import Verif\n' + ''.join(f'#print axioms {t}\n' for _, t in names))
    out = subprocess.run(['lake', 'env', 'lean', f], cwd='/verif/lean', capture_output=True, text=True).stdout
res = {}
for x in re.finditer(r"'([^']+(?:'[^']*)*?)' (does not depend on any axioms|depends on axioms: \[([^\]]*)\])", out):
    res[x.group(1)] = 'none' if x.group(3) is None else ', '.join(re.sub(r'\s+', ' ', x.group(3)).split(', '))
groups = {}
for p, t in names:
    groups.setdefault(res.get(t, '??'), []).append(f'{p}: {t}')
with open('/verif/AXIOMS.md', 'w') as o:
    o.write('# Axioms of the theorems named in MANIFEST.json\n\nWritten by `tools/gen_axioms.py` from `#print axioms`.\n')
    for g in sorted(groups):
        o.write(f'\n## {g}\n\n' + ''.join(f'* {x}\n' for x in groups[g]))
print({g: len(v) for g, v in groups.items()})
