#!/usr/bin/env python3
"""Regenerates MANIFEST.json.  A theorem named Cxx_... in lean/Verif belongs to property Cxx; the note is made of the
docstrings of its theorems, and of what tools/notes.json adds."""
import re,glob,json,os
root=os.path.dirname(os.path.dirname(os.path.abspath(__file__)))
notes=json.load(open(os.path.join(root,'tools','notes.json')))
thms={}; doc={}
for f in sorted(glob.glob(root+'/lean/Verif/*.lean')):
    txt=open(f).read(); ns=[m.group(1) for m in re.finditer(r'^namespace (\S+)',txt,re.M)]
    pre=ns[0]+'.' if ns else ''
    for m in re.finditer(r'^theorem (C\d+(?:_C\d+)*_\w+)',txt,re.M):
        head=re.sub(r'\s*(set_option [^\n]* in|omit [^\n]* in|include [^\n]* in)\s*$','',txt[:m.start()].rstrip()).rstrip()
        if head.endswith('-/'):
            i=head.rindex('/-'); d=' '.join(head[i:].replace('/--','').replace('-/','').split())
            d=re.sub(r'^\*{0,2}C\d+\*{0,2}[,:]?\s*','',d)
            doc[pre+m.group(1)]=d
        for c in re.findall(r'C\d+',m.group(1)):
            if re.match(r'(C\d+_)*'+c+r'_',m.group(1)): thms.setdefault(c,[]).append(pre+m.group(1))
claims=[]; nodoc=[]
for l in open(root+'/properties.jsonl'):
    p=json.loads(l); c=p['id']; t=thms.get(c,[]); extra=notes.get(c,{})
    t=t+[x for x in extra.get('also',[]) if x not in t]
    if not t: print('no theorem for',c); continue
    st='partial' if any(x.endswith('_partial') or 'violated' in x for x in t) else 'proved'
    st=extra.get('status',st)
    parts=[]
    viol=[x for x in t if 'violated' in x]
    if viol: parts.append('The full statement (as a definition %s) is false of the code and its negation is proved; the _partial theorems prove what holds.'%(c+'_statement'))
    for x in t:
        if x in doc: parts.append(x.split('.')[-1]+': '+doc[x])
        else: nodoc.append(x)
    if extra.get('note'): parts.append(extra['note'])
    claims.append({'property':c,'status':st,'theorems':t,'note':' '.join(parts)})
json.dump({'claims':claims},open(root+'/MANIFEST.json','w'),indent=1,ensure_ascii=False)
print(len(claims),'claims',sum(c['status']=='proved' for c in claims),'proved'); print('no docstring:',nodoc)
