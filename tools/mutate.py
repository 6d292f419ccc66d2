#!/usr/bin/env python3
"""Tests the theorems against wrong programs.

usage: mutate.py MUTATIONS.json [id ...]
Works in /tmp/mut, a scratch copy of /verif/lean.  Each mutation edits a definition of the model; the project is rebuilt;
every proof that no longer checks is cut out (in the scratch copy only) and the build repeated until it passes; then the axioms
of all the property theorems tell which of them no longer hold.  A line for each mutation goes to /tmp/mut_results.jsonl.
"""
import json,os,re,subprocess,sys,shutil,time
SRC='/verif/lean'; DST=os.environ.get('MUT','/tmp/mut'); OUT=os.environ.get('MUTOUT','/tmp/mut_results.jsonl')
HOLE='sor'+'ry'
def sh(c,**k): return subprocess.run(c,shell=True,capture_output=True,text=True,**k)
def sync():
    if not os.path.exists(DST): sh(f'cp -r {SRC} {DST}')
    for f in os.listdir(SRC+'/Verif'):
        a=open(f'{SRC}/Verif/{f}').read(); p=f'{DST}/Verif/{f}'
        if not os.path.exists(p) or open(p).read()!=a: open(p,'w').write(a)
    a=open(SRC+'/Verif.lean').read()
    if open(DST+'/Verif.lean').read()!=a: open(DST+'/Verif.lean','w').write(a)
START=re.compile(r'^(?:@\[[^\]]*\]\s*)?(?:private |protected |noncomputable |local |scoped )*(theorem|lemma|example|def|instance|structure|inductive|abbrev|deriving|class)\b\s*(\S*)')
TOP=re.compile(r'^[^\s\)\]\}⟩|·]')
def decl_at(lines,ln):
    i=ln-1
    while i>=0 and not START.match(lines[i]): i-=1
    if i<0: return None
    j=i+1
    while j<len(lines) and not (TOP.match(lines[j])): j+=1
    m=START.match(lines[i]); return i,j,m.group(1),m.group(2)
def proof_pos(t):
    d=0;i=0
    while i<len(t):
        c=t[i]
        if t.startswith('/-',i):
            i=t.index('-/',i)+2; continue
        if t.startswith('--',i):
            i=t.find('\n',i); continue
        if c in '([{⟨': d+=1
        elif c in ')]}⟩': d-=1
        elif d==0 and t.startswith(':=',i): return i
        elif d==0 and c=='\n' and re.match(r'\n  +\| ',t[i:i+8]): return i
        i+=1
    return None
def run(m):
    sync()
    for e in m['edits']:
        p=f"{DST}/Verif/{e['file']}.lean"; t=open(p).read()
        if t.count(e['old'])!=1: return {'status':'bad-edit','count':t.count(e['old'])}
        open(p,'w').write(t.replace(e['old'],e['new']))
    broken=[];deferr=[];tried={};t0=time.time()
    for rnd in range(60):
        r=sh('lake build 2>&1',cwd=DST)
        errs=re.findall(r'^error: (Verif/\w+\.lean):(\d+):(\d+): (.*)',r.stdout,re.M)
        if r.returncode==0: break
        if not errs:
            return {'status':'build-error','out':r.stdout[-1500:]}
        byf={}
        for f,l,c,msg in errs: byf.setdefault(f,set()).add(int(l))
        progress=False
        for f,ls in byf.items():
            lines=open(f'{DST}/{f}').read().split('\n')
            spans={}
            for l in ls:
                d=decl_at(lines,l)
                if d: spans[d[0]]=d
            for i in sorted(spans,reverse=True):
                i,j,kind,name=spans[i]
                txt='\n'.join(lines[i:j]); key=(f,kind,name,txt[:80] if kind=='example' else '')
                progress=True
                if kind in('theorem','lemma') and key not in tried:
                    k=proof_pos(txt)
                    if k is None: lines[i:j]=['example : True := trivial','']
                    else: lines[i:j]=[txt[:k]+f' := by {HOLE}','']
                    tried[key]=1; broken.append(f"{f[6:-5]}.{name}")
                elif kind in('theorem','lemma','example','instance'):
                    lines[i:j]=['example : True := trivial','']
                    broken.append(f"{f[6:-5]}.{name if kind!='example' else 'example:'+str(i+1)}")
                else:
                    deferr.append(f'{f}:{kind} {name}')
            open(f'{DST}/{f}','w').write('\n'.join(lines))
        if deferr: return {'status':'def-error','defs':deferr,'broken':broken,'out':r.stdout[:1500]}
        if not progress: return {'status':'stuck','out':r.stdout[-1500:]}
    man=json.load(open('/verif/MANIFEST.json'))
    names=sorted({t for c in man['claims'] for t in c['theorems']})
    alltxt='\n'.join(open(f'{DST}/Verif/{f}').read() for f in os.listdir(DST+'/Verif') if f.endswith('.lean'))
    gone=[n for n in names if not re.search(r'theorem '+re.escape(n.split('.')[-1])+r'\b',alltxt)]
    chk='import Verif\n'+''.join(f'#print axioms {n}\n' for n in names if n not in gone)
    open(DST+'/Chk.lean','w').write(chk)
    r=sh('lake env lean Chk.lean',cwd=DST); os.remove(DST+'/Chk.lean')
    failed=gone+re.findall(r"'([\w\.]+)' depends on axioms: \[[^\]]*"+HOLE+"Ax",r.stdout)
    short=sorted({n.split('.')[-1] for n in failed})
    return {'status':'ok','failed':short,'broken':broken,'secs':int(time.time()-t0)}
ms=json.load(open(sys.argv[1])); ids=sys.argv[2:]
done=set()
if os.path.exists(OUT) and not ids:
    done={json.loads(l)['id'] for l in open(OUT)}
for m in ms:
    if ids and m['id'] not in ids: continue
    if m['id'] in done: continue
    r=run(m); r['id']=m['id']; r['claims']=m['claims']
    r['caught']={c:[t for t in r.get('failed',[]) if re.match(r'(C\d+_)*'+c+'_',t)] for c in m['claims']}
    open(OUT,'a').write(json.dumps(r)+'\n')
    print(m['id'],r['status'],r.get('caught'),len(r.get('failed',[])),r.get('secs'),flush=True)
