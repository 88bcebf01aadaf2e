#!/usr/bin/env python3
"""DESIGN.md = design_head.md + table generated from properties.jsonl and MANIFEST.json."""
import json, glob, re, os
where = {}
for f in glob.glob('/verif/lean/Verif/**/*.lean', recursive=True):
    space = []
    for line in open(f):
        m = re.match(r'namespace (\S+)', line)
        if m: space.append(m.group(1))
        m = re.match(r'end (\S+)', line)
        if m and space and m.group(1) == space[-1]: space.pop()
        m = re.match(r'(?:@\[.*?\] )?theorem (\S+)', line)
        if m: where[".".join(space + [m.group(1)])] = os.path.relpath(f, '/verif/lean/Verif')
claims = {c['property']: c for c in json.load(open('/verif/MANIFEST.json'))['claims']}
out = [open('/verif/tools/design_head.md').read()]
for l in open('/verif/properties.jsonl'):
    p = json.loads(l); c = claims[p['id']]
    files = sorted({where[t] for t in c['theorems']})
    names = ", ".join('`%s`' % t.split('.')[-1] for t in c['theorems'])
    out.append("* **%s %s** — %s. %s%s (%s)\n" % (p['id'], p['title'], c['status'], names, ". " + c['note'] if c['note'] else "", ", ".join(files)))
open('/verif/DESIGN.md', 'w').write("".join(out))
