#!/usr/bin/env python3
"""Writes DESIGN.md: scripts/design_head.md, then tables generated from the sources."""
import json,os,re,glob
root=os.path.dirname(os.path.dirname(os.path.abspath(__file__)))
out=open(root+'/scripts/design_head.md').read().replace('@@PLAN@@\n','').replace('@@DISAGREE@@\n','')
out+='\n### Source lines cited per module\n\n| module | source |\n|---|---|\n'
for f in sorted(glob.glob(root+'/lean/Verif/**/*.lean',recursive=True)):
    t=open(f).read()
    cites={}
    def full(n):
        if n.startswith('gensim/'): return n
        c=[p for p in glob.glob('/repo/gensim/**/'+n,recursive=True)]
        return c[0][6:] if len(c)==1 else 'gensim/'+n
    for m in re.finditer(r'([\w/]+\.(?:pyx|py|pxd|pxi|h))`?,?[\s:]+(?:lines? )?((?:\d+(?:-\d+)?(?:,\s*|\s+and\s+)?)+)',t):
        for r in re.findall(r'\d+(?:-\d+)?',m.group(2)):
            a=[int(x) for x in r.split('-')]
            cites.setdefault(full(m.group(1)),[]).append((a[0],a[-1]))
    if not cites or 'Props' in os.path.basename(f): continue
    cell=[]
    for src,rs in sorted(cites.items()):
        rs=sorted(rs); merged=[]
        for a,b in rs:
            if merged and a<=merged[-1][1]+1: merged[-1][1]=max(merged[-1][1],b)
            else: merged.append([a,b])
        cell.append(src.replace('gensim/','')+' '+', '.join(str(a) if a==b else f'{a}-{b}' for a,b in merged))
    out+='| '+os.path.relpath(f,root+'/lean/Verif')[:-5]+' | '+'; '.join(cell)+' |\n'
m=json.load(open(root+'/MANIFEST.json'))
ax=json.load(open(root+'/scripts/axioms.json')) if os.path.exists(root+'/scripts/axioms.json') else {}
out+='\n### Axioms of the property theorems\n\nP = `propext`, C = `Classical.choice`, Q = `Quot.sound`; no other axiom occurs.\n\n| property | theorems (axioms) |\n|---|---|\n'
ab={'propext':'P','Classical.choice':'C','Quot.sound':'Q'}
for c in m['claims']:
    out+='| '+c['property']+' | '+', '.join(t.split('.')[-1]+' ('+(''.join(ab.get(x,x) for x in ax.get(t,['?'])) or 'none')+')' for t in c['theorems'])+' |\n'
open(root+'/DESIGN.md','w').write(out)
