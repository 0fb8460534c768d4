#!/usr/bin/env python3
"""regenerate AXIOMS.txt: the axioms every theorem of MANIFEST.json depends on (lake build first)"""
import json, subprocess, re, collections
m = json.load(open('/verif/MANIFEST.json'))
names = [t for c in m['claims'] for t in c['theorems']]
src = 'import Verif\n' + ''.join(f'#print axioms {n}\n' for n in names)
open('/tmp/ax.lean', 'w').write(src)
out = subprocess.run(['lake', 'env', 'lean', '/tmp/ax.lean'], cwd='/verif/lean', capture_output=True, text=True).stdout
out = re.sub(r'\n\s+', ' ', out)
res = {}
for l in out.splitlines():
    r = re.match(r"'(\S+)' depends on axioms: \[(.*)\]", l)
    if r: res[r[1]] = ', '.join(sorted(x.strip() for x in r[2].split(',')))
    r = re.match(r"'(\S+)' does not depend on any axioms", l)
    if r: res[r[1]] = 'none'
assert set(names) == set(res), set(names) ^ set(res)
groups = collections.defaultdict(list)
for n in names: groups[res[n]].append(n)
with open('/verif/AXIOMS.txt', 'w') as f:
    f.write('Axioms used by each theorem of MANIFEST.json (output of #print axioms, grouped).\n')
    for k in sorted(groups):
        f.write(f'\n[{k}]  ({len(groups[k])} theorems)\n')
        for n in groups[k]: f.write(f'  {n}\n')
print({k: len(v) for k, v in groups.items()})
