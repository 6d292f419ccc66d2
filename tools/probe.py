#!/usr/bin/env python3
"""Runs seeded/Probe.lean.txt (random histories, executable transcriptions of the core statements) against mutated core models.

usage: probe.py MUTATIONS.json [id ...]      results: /tmp/probe_results.jsonl
Only Base, CoreModel and the definitions the statements use are compiled, so no proof is involved: a statement reported
as refuted is false of the edited program.
"""
import json,os,re,subprocess,sys,time
from concurrent.futures import ThreadPoolExecutor
SRC='/verif/lean'; DST='/tmp/pl'; OUT=os.environ.get('PROBEOUT','/tmp/probe_results.jsonl')
NP=int(os.environ.get('NP','3')); SEEDS=int(os.environ.get('SEEDS','30')); LEN=int(os.environ.get('LEN','20'))
def sh(c,**k): return subprocess.run(c,shell=True,capture_output=True,text=True,**k)
WANT=[('CoreInv',['structure World','def World.mOf','structure GoodMeta']),
 ('CoreOps',['inductive Op','def St.putFile','def discard','def Op.run','def Op.exec','def runAll','def Op.removesFrom']),
 ('CoreFrame',['def Op.target','def Op.addsDeltas']),('PropsCore3',['def Op.publishes'])]
def extract(t,start):
    L=t.split('\n')
    for i,l in enumerate(L):
        if re.match(re.escape(start)+r'\b(?!\.)',l):
            j=i+1
            while j<len(L) and (L[j]=='' or L[j][0] in ' |)') or (j<len(L) and L[j].startswith('  ')): j+=1
            return '\n'.join(L[i:j])
    raise Exception(start)
def run(m):
    if os.path.exists(DST)==False:
        sh(f'mkdir -p {DST}/Verif; cp {SRC}/lakefile.toml {SRC}/lean-toolchain {SRC}/lake-manifest.json {DST}/ 2>/dev/null; ln -s {SRC}/.lake/packages {DST}/.lake_packages 2>/dev/null')
    files={f:open(f'{SRC}/Verif/{f}.lean').read() for f in ['Base','CoreModel','CoreInv','CoreOps','CoreFrame','PropsCore3','Spec','Demo']}
    for e in m['edits']:
        if e['file'] not in files: return {'status':'skip'}
        if files[e['file']].count(e['old'])!=1: return {'status':'bad-edit'}
        files[e['file']]=files[e['file']].replace(e['old'],e['new'])
    D='import Verif.CoreModel\nnamespace Ferryd\n'
    for f,ws in WANT:
        for w in ws: D+=extract(files[f],w)+'\n\n'
    sp=files['Spec']; D+=sp[sp.index('namespace Ferryd.Spec'):sp.index('end Ferryd.Spec')].replace('namespace Ferryd.Spec','namespace Spec')+'end Spec\nend Ferryd\n'
    D=D.replace('def GoodMeta','def GoodMeta')
    de=files['Demo']; k=de.index('def W : World')
    D+=de[de.index('namespace Ferryd.Demo'):k]+'end Ferryd.Demo\n'
    D=re.sub(r'structure GoodMeta[^\0]*?\n\n','',D)
    D=D.replace('m.rel','((m.history.head?.map Update.release).getD 0)').replace('b.rel','((b.history.head?.map Update.release).getD 0)').replace('a.rel','((a.history.head?.map Update.release).getD 0)').replace('x.rel','((x.history.head?.map Update.release).getD 0)').replace('y.rel','((y.history.head?.map Update.release).getD 0)')
    for n,t in (('Base',files['Base']),('CoreModel',files['CoreModel']),('Defs',D)):
        p=f'{DST}/Verif/{n}.lean'
        if not os.path.exists(p) or open(p).read()!=t: open(p,'w').write(t)
    open(DST+'/Verif.lean','w').write('import Verif.Defs\n')
    t0=time.time()
    r=sh('lake build 2>&1',cwd=DST)
    if r.returncode!=0: return {'status':'build-error','out':r.stdout[-1500:]}
    P=open('/verif/seeded/Probe.lean.txt').read()
    def one(i):
        lo=i*SEEDS//NP; hi=(i+1)*SEEDS//NP
        f=f'{DST}/P{i}.lean'; open(f,'w').write(P.replace('PLO',str(lo)).replace('PHI',str(hi)).replace('PLEN',str(LEN)).replace('PVERB','true'))
        return sh(f'timeout 1500 lake env lean {f}',cwd=DST).stdout
    with ThreadPoolExecutor(NP) as ex: outs=list(ex.map(one,range(NP)))
    o='\n'.join(outs)
    if 'error' in o: return {'status':'probe-error','out':o[:1500]}
    ref={}
    for a,b,c in re.findall(r'REFUTED (\S+) (\d+)/(\d+)',o):
        x=ref.setdefault(a,[0,0]); x[0]+=int(b); x[1]+=int(c)
    wit=re.findall(r'REFUTED (\S+) .*\n   (.*)',o)
    w={}
    for a,b in wit:
        if a not in w or len(b)<len(w[a]): w[a]=b
    return {'status':'ok','refuted':{k:f'{v[0]}' for k,v in sorted(ref.items())},'wit':w,'secs':int(time.time()-t0)}
if __name__=='__main__':
    ms=json.load(open(sys.argv[1])); ids=sys.argv[2:]
    done=set()
    if os.path.exists(OUT) and not ids: done={json.loads(l)['id'] for l in open(OUT)}
    if 'none' in ids: ms=[{'id':'none','edits':[],'claims':[]}]
    for m in ms:
        if ids and m['id'] not in ids: continue
        if m['id'] in done: continue
        r=run(m); r['id']=m['id']; r['claims']=m['claims']
        if r['status']=='skip': continue
        r['missed']=[c for c in m['claims'] if not any(re.match(r'(C\d+_)*'+c+'_',t) for t in r.get('refuted',{}))]
        open(OUT,'a').write(json.dumps(r)+'\n')
        print(m['id'],r['status'],'claims',m['claims'],'MISSED',r['missed'],'refuted',sorted(r.get('refuted',{})),r.get('secs'),r.get('out','')[:800],flush=True)
