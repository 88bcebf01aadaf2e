#!/usr/bin/env python3
"""Regenerates AXIOMS.txt: `#print axioms` of every theorem named in MANIFEST.json (needs a built lean/)."""
import json, re, subprocess
ts=[]
for c in json.load(open('/verif/MANIFEST.json'))['claims']:
    for t in c['theorems']:
        if t not in ts: ts.append(t)
open('/tmp/ax.lean','w').write('import Verif\n'+''.join(f'#print axioms {t}\n' for t in ts))
out=subprocess.run(['lake','env','lean','/tmp/ax.lean'],cwd='/verif/lean',capture_output=True,text=True).stdout
out=re.sub(r',\s*\n\s+',', ',out); out=re.sub(r'\n\s+',' ',out)
assert 'error' not in out, out
open('/verif/AXIOMS.txt','w').write(out)
print(len(ts),'theorems',len(out.splitlines()),'lines')
