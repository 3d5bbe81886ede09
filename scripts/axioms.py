#!/usr/bin/env python3
"""Writes scripts/axioms.json: the axioms of every theorem in MANIFEST.json (needs a finished build)."""
import json,os,re,subprocess
root=os.path.dirname(os.path.dirname(os.path.abspath(__file__)))
m=json.load(open(root+'/MANIFEST.json'))
ths=[t for c in m['claims'] for t in c['theorems']]
src='import Verif\n'+''.join(f'#print axioms {t}\n' for t in ths)
open('/tmp/Axioms.lean','w').write(src)
out=subprocess.run(['lake','env','lean','/tmp/Axioms.lean'],cwd=root+'/lean',capture_output=True,text=True).stdout
out=re.sub(r'\n\s+',' ',out)
res={}
for l in out.splitlines():
    a=re.search(r"'([^']+)' depends on axioms: \[([^\]]*)\]",l)
    b=re.search(r"'([^']+)' does not depend on any axioms",l)
    if a: res[a.group(1)]=[x.strip() for x in a.group(2).split(',')]
    elif b: res[b.group(1)]=[]
json.dump(res,open(root+'/scripts/axioms.json','w'),indent=0,sort_keys=True)
print(len(ths),'theorems',len(res),'found',sorted({x for v in res.values() for x in v}))
