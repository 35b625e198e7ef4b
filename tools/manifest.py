"""Regenerate MANIFEST.json from tools/claims.txt and lean/Verif.lean from the module tree."""
import json, os, re
root = os.path.dirname(os.path.dirname(os.path.abspath(__file__)))
mods = []
for d, _, fs in os.walk(os.path.join(root, 'lean', 'Verif')):
    for f in fs:
        if f.endswith('.lean'):
            p = os.path.relpath(os.path.join(d, f), os.path.join(root, 'lean'))
            mods.append(p[:-5].replace('/', '.'))
with open(os.path.join(root, 'lean', 'Verif.lean'), 'w') as o:
    o.writelines(f'import {m}\n' for m in sorted(mods))
names = set()
for m in mods:
    t = open(os.path.join(root, 'lean', m.replace('.', '/') + '.lean')).read()
    names |= set(re.findall(r'^(?:private )?theorem ([\w.₀-₉\']+)', t, re.M))
claims = []
for line in open(os.path.join(root, 'tools', 'claims.txt')):
    line = line.strip()
    if not line or line.startswith('#'):
        continue
    pid, status, ths, note = [x.strip() for x in line.split('|', 3)]
    ths = ths.split()
    for t in ths:
        assert t in names, t
    claims.append({'property': pid, 'status': status, 'theorems': ['Verif.' + t for t in ths], 'note': note})
used = {t[6:] for c in claims for t in c['theorems']}
for n in sorted(names):
    if re.match(r'C\d\d_', n) and n not in used:
        print('unlisted', n)
with open(os.path.join(root, 'MANIFEST.json'), 'w') as o:
    o.write('{"claims":[\n' + ',\n'.join(json.dumps(c, ensure_ascii=False) for c in claims) + '\n]}\n')
