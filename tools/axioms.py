#!/usr/bin/env python3
"""Writes AXIOMS.md: the axioms each theorem of MANIFEST.json depends on, as printed by Lean.
Run from /verif after `lake build`."""
import json, re, subprocess, tempfile
names = [t for c in json.load(open('MANIFEST.json'))['claims'] for t in c['theorems']]
names = list(dict.fromkeys(names))
with tempfile.NamedTemporaryFile('w', suffix='.lean', delete=False) as f:
    f.write('import Verif\n' + ''.join(f'#print axioms {n}\n' for n in names))
out = subprocess.run(['lake', 'env', 'lean', f.name], cwd='lean', capture_output=True, text=True).stdout
out = re.sub(r'\s+', ' ', out)
res = {}
for m in re.finditer(r"'([^ ]+)' (?:depends on axioms: \[([^\]]*)\]|does not depend on any axioms)", out):
    res[m[1]] = m[2] or 'none'
groups = {}
for n in names:
    groups.setdefault(res[n], []).append(n)
allowed = {'propext', 'Classical.choice', 'Quot.sound'}
with open('AXIOMS.md', 'w') as f:
    f.write('# Axioms of every theorem in MANIFEST.json\n\nGenerated by `tools/axioms.py` from `#print axioms`.\n')
    for g in sorted(groups, key=lambda g: -len(groups[g])):
        assert g == 'none' or set(g.split(', ')) <= allowed, g
        f.write(f'\n## {g} ({len(groups[g])})\n\n' + '\n'.join(f'* `{n}`' for n in groups[g]) + '\n')
print({g: len(v) for g, v in groups.items()})
