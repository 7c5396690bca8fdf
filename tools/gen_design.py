#!/usr/bin/env python3
"""Writes the per-property table of /verif/DESIGN.md (between the markers) from properties.jsonl, MANIFEST.json and the two columns below."""
import json, re
M = {}   # id -> (what is modelled, how it is proved)
def d(ids, model, proof):
    for i in ids.split(): M[i] = (model, proof)
exec(open('/verif/tools/design_rows.py').read())
titles = {}
for l in open('/verif/properties.jsonl'):
    j = json.loads(l); titles[j['id']] = j['title']
status = {c['property']: c for c in json.load(open('/verif/MANIFEST.json'))['claims']}
rows = ['| Id | Property | Modelled (Lean module under `Verif/Model`) | How it is proved | Status |', '|---|---|---|---|---|']
for i in sorted(titles):
    c = status.get(i)
    m, p = M.get(i, ('?', '?'))
    if m == '?': print('no row for', i)
    rows.append(f"| {i} | {titles[i]} | {m} | {p} | {c['status'] if c else '-'} |")
t = open('/verif/DESIGN.md').read()
a, b = '<!-- table begin -->\n', '<!-- table end -->'
i, j = t.index(a) + len(a), t.index(b)
open('/verif/DESIGN.md', 'w').write(t[:i] + '\n'.join(rows) + '\n' + t[j:])
