#!/usr/bin/env python3
"""Write MANIFEST.json from tools/claims.txt (one claim per line: id | status | note) and from the theorem names
`Cnn_...` found in lean/Verif/Props/*.lean."""
import json, re, glob, os
root = os.path.dirname(os.path.dirname(os.path.abspath(__file__)))
ths = {}
for f in sorted(glob.glob(root + '/lean/Verif/Props/*.lean')):
    src = open(f).read()
    ns = re.search(r'^namespace (\S+)', src, re.M).group(1)
    for mm in re.finditer(r'^theorem (C(\d+)_\S+)', src, re.M):
        ths.setdefault('C' + mm.group(2), []).append(ns + '.' + mm.group(1))
ids = [json.loads(l)['id'] for l in open(root + '/properties.jsonl')]
claims = {}
for l in open(root + '/tools/claims.txt'):
    if l.strip():
        i, st, note = [x.strip() for x in l.split('|', 2)]
        claims[i] = (st, note)
out = []
for i in ids:
    if i in claims:
        st, note = claims[i]
        if st != 'not_applicable' and i not in ths:
            print('NO THEOREM', i); continue
        out.append({'property': i, 'status': st, 'theorems': ths.get(i, []), 'note': note})
    elif i in ths:
        print('NO CLAIM LINE', i)
for i in set(claims) - set(ids): print('UNKNOWN', i)
json.dump({'claims': out}, open(root + '/MANIFEST.json', 'w'), indent=1, ensure_ascii=False)
print(len(out), 'claims of', len(ids), 'theorems', sum(len(c['theorems']) for c in out))
