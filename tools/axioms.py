#!/usr/bin/env python3
"""Writes AXIOMS.md: the axioms every theorem of MANIFEST.json depends on (needs a finished `lake build`)."""
import json, re, subprocess
m = json.load(open('/verif/MANIFEST.json'))
names = sorted({t if t.startswith('Verif.') else 'Verif.' + t for c in m['claims'] for t in c['theorems']})
open('/tmp/ax.lean', 'w').write('import Verif\n' + ''.join(f'#print axioms {n}\n' for n in names))
r = subprocess.run(['lake', 'env', 'lean', '/tmp/ax.lean'], capture_output=True, text=True, cwd='/verif/lean')
got = {}
for mm in re.finditer(r"'(\S+)' (?:depends on axioms: \[([^\]]*)\]|does not depend on any axioms)", r.stdout):
    got[mm.group(1)] = sorted((mm.group(2) or '').replace('\n', ' ').replace(' ', '').split(','))
assert set(got) == set(names), set(names) - set(got)
allowed = {'propext', 'Classical.choice', 'Quot.sound', ''}
assert all(set(v) <= allowed for v in got.values())
with open('/verif/AXIOMS.md', 'w') as fh:
    fh.write('# Axioms per theorem\n\nOutput of `#print axioms`, written by `tools/axioms.py`.\n\n| theorem | axioms |\n|---|---|\n')
    for n in names:
        fh.write(f"| {n[6:]} | {', '.join(got[n]) or 'none'} |\n")
print(len(names))
