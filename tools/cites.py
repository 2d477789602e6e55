#!/usr/bin/env python3
"""check line citations in the model: `name` (`file.py:a-b`) must match the def of name"""
import re,ast,glob,sys
defs={}
for f in glob.glob('/repo/optax/**/*.py',recursive=True):
    if f.endswith('_test.py'): continue
    b=f.split('/')[-1]
    tree=ast.parse(open(f).read())
    def walk(n,pre):
        for c in ast.iter_child_nodes(n):
            if isinstance(c,(ast.FunctionDef,ast.ClassDef)):
                a=min([c.lineno]+[d.lineno for d in c.decorator_list])
                defs.setdefault((b,c.name),[]).append((a,c.end_lineno))
                walk(c,pre+c.name+'.')
            else: walk(c,pre)
    walk(tree,'')
bad=0; fixes={}
for f in sorted(glob.glob('/verif/lean/Verif/**/*.lean',recursive=True)):
    for m in re.finditer(r'`([A-Za-z_0-9\.]+)(?:\([^`]*\))?`\s+\(`([a-z_0-9]+\.py):(\d+)-(\d+)`',open(f).read()):
        n,b,a,e=m.group(1).split('.')[-1],m.group(2),int(m.group(3)),int(m.group(4))
        d=defs.get((b,n))
        if not d or not any(x<=a and e<=y for x,y in d):
            if d and len(d)==1 and '--fix' in sys.argv:
                fixes.setdefault(f,[]).append((m.group(0),m.group(0).replace(f'{a}-{e}',f'{d[0][0]}-{d[0][1]}')))
            bad+=1; print(f.split('/')[-1],m.group(1),b,a,e,'actual',d)
print('bad',bad)
for f,l in fixes.items():
    s=open(f).read()
    for x,y in l: s=s.replace(x,y)
    open(f,'w').write(s)
