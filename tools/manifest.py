#!/usr/bin/env python3
"""Generate MANIFEST.json; every property of properties.jsonl gets a claim. Checks that each theorem
name occurs in the Lean sources."""
import json, re, glob, sys
claims = {}
def c(pid, status, theorems, note=""):
    claims[pid] = {"property": pid, "status": status, "theorems": theorems.split(), "note": note}
def ns(prefix, names):
    return " ".join(prefix + "." + n for n in names.split())
exec(open('/verif/tools/claims.py').read())
props = [json.loads(l)['id'] for l in open('/verif/properties.jsonl')]
known = set()
for f in glob.glob('/verif/lean/Verif/**/*.lean', recursive=True):
    space = []
    for line in open(f):
        m = re.match(r'namespace (\S+)', line)
        if m: space.append(m.group(1))
        m = re.match(r'end (\S+)', line)
        if m and space and m.group(1) == space[-1]: space.pop()
        m = re.match(r'(?:@\[.*?\] )?theorem (\S+)', line)
        if m: known.add(".".join(space + [m.group(1)]))
bad = [(p, t) for p, cl in claims.items() for t in cl['theorems'] if t not in known]
if bad: print("unknown theorems", bad); sys.exit(1)
out = []
for p in props:
    if p in claims: out.append(claims[p])
    else:
        print("no claim for", p)
extra = set(claims) - set(props)
if extra: print("claims without property", extra)
json.dump({"claims": out}, open('/verif/MANIFEST.json', 'w'), indent=1)
print(len(out), "claims")
