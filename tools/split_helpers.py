"""Move helper theorems (names not starting with a property id) from a Props file to a Proofs file.
Usage: split_helpers.py Props/X.lean Proofs/X.lean  (paths relative to lean/Verif)"""
import re, sys
src, dst = sys.argv[1:]
s = open('Verif/' + src).read()
body_start = re.search(r'^namespace Verif.*?\n', s, re.M).end()
head, body = s[:body_start], s[body_start:]
body = body[:body.rindex('end Verif')]
blocks = re.split(r'\n\n(?=\S)', body.strip('\n'))
helpers, props, pre = [], [], []
for b in blocks:
    m = re.search(r'^(?:@\[simp\] )?(?:private )?(?:theorem|lemma|def|noncomputable def|structure) (\S+)', b, re.M)
    if re.match(r'(section|end|open|variable|set_option|namespace)\b', b): helpers.append(b); props.append(b)
    elif m and not re.match(r'C\d\d_', m.group(1)): helpers.append(b)
    else: props.append(b)
imports = re.findall(r'^import .*$', head, re.M)
mod = 'Verif.' + dst[:-5].replace('/', '.')
name = src.split('/')[-1][:-5]
open('Verif/' + dst, 'w').write('\n'.join(imports) + f'\n\n/-! Helper lemmas for `{src}`. -/\n\nnamespace Verif\n\n' + '\n\n'.join(pre + helpers) + '\n\nend Verif\n')
rest = head[re.search(r'(?:^import .*\n)+', head, re.M).end():]
open('Verif/' + src, 'w').write(f'import {mod}\n' + rest + '\n' + '\n\n'.join(pre + props) + '\n\nend Verif\n')
