#!/usr/bin/env python3
"""Seeded-bug runner. usage: mutate.py <mutations.py> ; each entry: m(file, def, old, new, claim, english).
Works in the scratch copy /tmp/mut (outside /verif) and appends to /verif/seeded/LOG.jsonl."""
import json, re, subprocess, sys, os, shutil
SRC='/verif/lean'; DST='/tmp/mut'
muts=[]
def m(file, name, old, new, claim, english): muts.append((file,name,old,new,claim,english))
exec(open(sys.argv[1]).read())
only=sys.argv[2:] 
subprocess.run(['rsync','-a','--delete',SRC+'/',DST+'/'],check=True) if shutil.which('rsync') else (shutil.rmtree(DST,ignore_errors=True), subprocess.run(['cp','-a',SRC,DST],check=True))
def enclosing(path, line):
    ls=open(path).read().split('\n'); space=[]; name=None
    for i,l in enumerate(ls[:line]):
        x=re.match(r'namespace (\S+)',l)
        if x: space.append(x.group(1))
        x=re.match(r'end (\S+)',l)
        if x and space and x.group(1)==space[-1]: space.pop()
        x=re.match(r'(?:@\[.*?\] )?(?:private )?(?:noncomputable )?(theorem|def|example|instance|structure|inductive)\s*(\S*)',l)
        if x: name=(x.group(1),'.'.join(space+[x.group(2)]) if x.group(1)!='example' else 'example at %s:%d'%(os.path.relpath(path,DST),i+1))
    return name
log=open('/verif/seeded/LOG.jsonl','a')
for file,name,old,new,claim,english in muts:
    path=f'{DST}/Verif/{file}.lean'; orig=open(path).read()
    pos=0; short=name
    if '.' in name:   # Space.name: the definition inside `namespace Space`
        sp,short=name.rsplit('.',1); z=re.search(r'^namespace '+re.escape(sp)+r'$',orig,re.M); pos=z.end() if z else 0
    k=re.compile(r'^(?:noncomputable )?def '+re.escape(short)+r'\b',re.M).search(orig,pos)
    if not k: k=re.compile(r'^(?:noncomputable )?def '+re.escape(name)+r'\b',re.M).search(orig)   # `def A.b`
    if not k: print('NO DEF',file,name); continue
    e=re.search(r'^(/--|end |def |noncomputable def |section|variable|namespace|theorem|/-!|inductive|structure)',orig[k.end():],re.M)
    end=k.end()+(e.start() if e else len(orig))
    body=orig[k.start():end]
    if body.count(old)<1: print('NO MATCH',file,name,repr(old)); continue
    nb=body.replace(old,new,1)
    open(path,'w').write(orig[:k.start()]+nb+orig[end:])
    try:
        r=subprocess.run(['lake','build'],cwd=DST,capture_output=True,text=True,timeout=1800)
        out=r.stdout+r.stderr
    except subprocess.TimeoutExpired:
        out='TIMEOUT'
    thms=[];mods=[]
    for x in re.finditer(r'^error: (Verif/\S+\.lean):(\d+):\d+: ',out,re.M):
        n=enclosing(f'{DST}/'+x.group(1),int(x.group(2)))
        if n:
            t=n[1] if n[0] in('theorem','example') else n[0]+' '+n[1]
            if t not in thms: thms.append(t)
    for x in re.finditer(r'^- (Verif\.\S+)',out,re.M): mods.append(x.group(1))
    open(path,'w').write(orig)
    self_err=[t for t in thms if t.startswith('def ')]
    verdict='survived' if not thms and 'TIMEOUT' not in out else ('invalid' if self_err and len(self_err)==len(thms) else 'killed')
    print(verdict,claim,file,name,'::',thms[:6],flush=True)
    if verdict=='invalid': continue
    log.write(json.dumps({"definition":f"{file}.lean: {name}","edit":f"{old!r} -> {new!r}","bug":english,"claim":claim,"result":verdict,"theorems_failed":thms,"modules_failed":mods,"theorems_tightened":[]})+'\n'); log.flush()
