#!/usr/bin/env python3
"""tools/log_seeds.py results.jsonl [index=theorem,theorem ...]: append results of tools/seed.py to seeded/LOG.jsonl.
index=... names the theorems that were added or tightened because of that attempt."""
import json,sys
t=dict(a.split('=') for a in sys.argv[2:])
with open('seeded/LOG.jsonl','a') as o:
    for l in open(sys.argv[1]):
        r=json.loads(l)
        if 'error' in r: print('skip',r['i'],r['error']); continue
        ed=r.get('edits') or [[r['old'],r['new']]]
        o.write(json.dumps({"definition":r['definition'],"file":"lean/Verif/"+r['file'],
          "edit":' ; '.join('%s  ==>  %s'%(a,b) for a,b in ed),
          "breaks":r['breaks'],"claims":r['claims'],"failed":r['failed'],"survived_claims":r['survived_claims'],
          "tightened":[x for x in t.get(str(r['i']),'').split(',') if x]},ensure_ascii=False)+'\n')
