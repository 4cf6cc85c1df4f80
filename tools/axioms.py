#!/usr/bin/env python3
"""Write AXIOMS.md: the axioms every property theorem of MANIFEST.json depends on (`#print axioms`)."""
import json, re, subprocess
names = []
for c in json.load(open('/verif/MANIFEST.json'))['claims']:
    names += [(c['property'], t) for t in c['theorems']]
src = 'import Verif\n' + ''.join(f'#print axioms {t}\n' for _, t in names)
open('/tmp/axioms_check.lean', 'w').write(src)
out = subprocess.run(['lake', 'env', 'lean', '/tmp/axioms_check.lean'], cwd='/verif/lean',
                     capture_output=True, text=True).stdout
dep = {}
for m in re.finditer(r"'([^']+)' (?:depends on axioms: \[([^\]]*)\]|does not depend on any axioms)", out):
    dep[m.group(1)] = re.sub(r'\s+', ' ', m.group(2) or 'none')
with open('/verif/AXIOMS.md', 'w') as f:
    f.write('# Axioms of every property theorem\n\nOutput of `#print axioms` (tools/axioms.py).\n\n')
    f.write('| Property | Theorem | Axioms |\n|---|---|---|\n')
    for p, t in names:
        f.write(f'| {p} | `{t}` | {dep[t]} |\n')
extra = {a for v in dep.values() for a in v.split(', ')} - {'propext', 'Classical.choice', 'Quot.sound', 'none'}
print(len(names), 'theorems; axioms other than the standard three:', sorted(extra))
