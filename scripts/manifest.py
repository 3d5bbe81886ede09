#!/usr/bin/env python3
"""Collects property theorems (named Cnn_*) from lean/Verif and writes MANIFEST.json.

status: "proved" unless the id is listed in scripts/partial.json (id -> note) or has no theorem.
Theorems named *_fails / *_witness / *_not_* are negative results and are listed too."""
import json,re,os,glob
root=os.path.dirname(os.path.dirname(os.path.abspath(__file__)))
ths={}
for f in sorted(glob.glob(root+'/lean/Verif/**/*.lean',recursive=True)):
    ns=[]
    for l in open(f):
        m=re.match(r'namespace\s+(\S+)',l)
        if m: ns.append(m.group(1))
        m=re.match(r'end\s+(\S+)',l)
        if m and ns and ns[-1]==m.group(1): ns.pop()
        m=re.match(r'(?:@\[[^\]]*\]\s*)?theorem\s+(C\d\d+)_(\S+)',l)
        if m: ths.setdefault(m.group(1),[]).append('.'.join(ns+[m.group(1)+'_'+m.group(2)]))
notes=json.load(open(root+'/scripts/notes.json'))
claims=[]
for l in open(root+'/properties.jsonl'):
    c=json.loads(l)['id']
    n=notes.get(c,{})
    t=ths.get(c,[])
    st=n.get('status') or ('proved' if t else None)
    if st is None: continue
    claims.append({"property":c,"status":st,"theorems":t,"note":n.get('note','')})
json.dump({"claims":claims},open(root+'/MANIFEST.json','w'),indent=1,ensure_ascii=False)
print({s:sum(1 for c in claims if c['status']==s) for s in ('proved','partial','not_applicable')})
ids=[json.loads(l)['id'] for l in open(root+'/properties.jsonl')]
print('no claim:',[i for i in ids if i not in {c['property'] for c in claims}], 'unknown ids:',[t for t in ths if t not in ids])
