#!/usr/bin/env python3
"""Seeded-bug runner. Usage: tools/seed.py seeded/batchN.json [index ...]
Each entry: {"definition","file" (under lean/Verif),"old","new","breaks": "English claim","claims": ["C01",..]}.
For an entry, the edited module and every module that (transitively) imports it are put into one file in
/tmp/seed (scratch), elaborated with error recovery, and every Cnn_ theorem in them is asked for its axioms:
a theorem fails if it is missing or depends on the recovery axiom, i.e. its proof does not go through.
Results: one JSON line per entry on stdout."""
import json, os, re, subprocess, sys
from concurrent.futures import ThreadPoolExecutor
L='/verif/lean'
def mods():
    r={}
    for d,_,fs in os.walk(L+'/Verif'):
        for f in fs:
            if f.endswith('.lean'):
                p=os.path.join(d,f); m=os.path.relpath(p,L)[:-5].replace('/','.')
                r[m]=open(p).read()
    return r
M=mods()
IMP={m:re.findall(r'^import (\S+)',s,re.M) for m,s in M.items()}
def deps(m,seen=None):
    seen=set() if seen is None else seen
    for i in IMP.get(m,[]):
        if i not in seen:
            seen.add(i); deps(i,seen)
    return seen
DEPS={m:deps(m) for m in M}
def topo(ms):
    out=[]
    def go(m):
        if m in out: return
        for i in IMP[m]:
            if i in ms: go(i)
        out.append(m)
    for m in sorted(ms): go(m)
    return out
def run(idx,e):
    m='Verif.'+e['file'].replace('/','.').removesuffix('.lean')
    src=M[m]
    edits=e.get('edits') or [[e['old'],e['new']]]
    for old,new in edits:
        if src.count(old)<1: return dict(e,error='pattern occurs %d times: %s'%(src.count(old),old))
        src=src.replace(old,new,1) if e.get('first') else src.replace(old,new)
        if not e.get('first') and not e.get('all') and M[m].count(old)!=1: return dict(e,error='pattern occurs %d times: %s'%(M[m].count(old),old))
    ds=[k for k in M if m in DEPS[k] or k==m]
    if os.environ.get('NARROW'):   # only the modules with theorems of the claims, and what they need
        want=[k for k in ds if any(re.search(r'^theorem %s_'%c,M[k],re.M) for c in e['claims'])]
        keep={m}
        for k in want: keep|={k}|DEPS[k]
        ds=[k for k in ds if k in keep]
    order=topo(set(ds))
    imps=set()
    for k in order:
        for i in IMP[k]:
            if i not in ds: imps.add(i)
    body=[]
    for k in order:
        s=src if k==m else M[k]
        s=re.sub(r'^import \S+\n','',s,flags=re.M)
        body.append('section\n'+s+'\nend\n')
    thms=[]
    for k in order:
        if k.startswith('Verif.Props.'):
            ns=re.search(r'^namespace (\S+)',M[k],re.M).group(1).removeprefix('Lasy').lstrip('.')
            thms+=[(ns+'.' if ns else '')+t for t in re.findall(r'^theorem (C\d+_\w+)',M[k],re.M)]
    tail='''
open Lean Elab Command in
run_cmd do
  let kenv := (← getEnv).toKernelEnv
  let mut bad : NameSet := {}
  let mut seen : NameSet := {}
  for n in [%s] do
    let nm := `Lasy ++ n
    -- a theorem fails if the kernel does not have it, or it rests on a constant the kernel does not have or on the recovery axiom
    let mut todo : Array Name := #[nm]
    let mut visited : NameSet := {}
    let mut isBad := false
    while !todo.isEmpty && !isBad do
      let x := todo.back!
      todo := todo.pop
      if visited.contains x || seen.contains x then continue
      visited := visited.insert x
      if bad.contains x || x == ``sorryAx then isBad := true
      else match kenv.find? x with
        | none => isBad := true
        | some (.axiomInfo _) => if x != ``propext && x != ``Classical.choice && x != ``Quot.sound then isBad := true
        | some ci => for y in ci.getUsedConstantsAsSet do todo := todo.push y
    if isBad then bad := bad.insert nm
    else for y in visited do seen := seen.insert y
    logInfo m!"SEED {n} {isBad}"
'''%(', '.join('`'+t for t in thms))
    f='/tmp/seed/S%s.lean'%idx
    open(f,'w').write('import Lean\n'+''.join('import %s\n'%i for i in sorted(imps))+'\n'.join(body)+tail)
    p=subprocess.run(['lake','env','lean',f],cwd=L,capture_output=True,text=True)
    out=p.stdout+p.stderr
    open('/tmp/seed/S%s.out'%idx,'w').write(out)
    st=dict(re.findall(r'SEED ([\w.]+) (\w+)',out))
    failed=sorted(t for t in thms if st.get(t)!='false')
    claims=e.get('claims',[])
    surv=[c for c in claims if not any(t.split('.')[-1].startswith(c+'_') for t in failed)]
    return dict(e,failed=failed,survived_claims=surv,ran=len(st))
if __name__=='__main__':
    es=json.load(open(sys.argv[1])); sel=[int(x) for x in sys.argv[2:]] or range(len(es))
    b=os.path.basename(sys.argv[1])[:-5]
    with ThreadPoolExecutor(3) as ex:
        for r in ex.map(lambda i:(i,run(b+'_%d'%i,es[i])),sel):
            i,d=r
            print(json.dumps(dict(i=i,**d),ensure_ascii=False),flush=True)
