#!/usr/bin/env python3
"""Writes seeded/LOG.jsonl from mutations.json, the results of mutate.py and probe.py, and tightened.json."""
import json,os
B='/verif/seeded/'
muts=json.load(open(B+'mutations.json'))
def load(p):
    d={}
    if os.path.exists(p):
        for l in open(p):
            r=json.loads(l)
            if r.get('status')=='ok' or r['id'] not in d: d[r['id']]=r
    return d
# results are kept in the repository so that the log can be made again
for n in ('mut_results','probe_results'):
    keep=load(B+n+'.jsonl'); keep.update(load('/tmp/'+n+'.jsonl'))
    with open(B+n+'.jsonl','w') as f:
        for k in sorted(keep):
            r=keep[k]; r.pop('wit',None); r.pop('out',None)
            f.write(json.dumps(r)+'\n')
M=load(B+'mut_results.jsonl'); P=load(B+'probe_results.jsonl')
T=json.load(open(B+'tightened.json'))
n=0
with open(B+'LOG.jsonl','w') as f:
    for m in muts:
        r=M.get(m['id']); p=P.get(m['id'])
        if not r and not p: continue
        rec={'id':m['id'],'definition':m['definition'],'edit':m['edit'],'claims_broken':m['claims']}
        if r:
            rec['build']=r['status']
            if r['status']=='ok':
                rec['theorems_failed']=sorted(r['failed']); rec['proofs_broken_directly']=r['broken']
        if p and p['status']=='ok':
            rec['statements_refuted_by_execution']=sorted(p['refuted'])
        miss=[c for c in m['claims'] if r and r['status']=='ok' and not any(t.startswith(c+'_') for t in r['failed'])]
        rec['missed']=miss
        rec['tightened']=T.get(m['id'],[])
        if not m['claims']: rec['note']='control: breaks no claim'
        f.write(json.dumps(rec,ensure_ascii=False)+'\n'); n+=1
    for x in T.get('_other',[]): f.write(json.dumps(x,ensure_ascii=False)+'\n'); n+=1
print(n,'lines')
