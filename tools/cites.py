"""Check that every file:line citation in the model points inside an existing file of /repo."""
import re,os,glob,collections
R='/repo/src/einsteinpy'
files=[os.path.relpath(os.path.join(d,f),R) for d,_,fs in os.walk(R) for f in fs if f.endswith('.py')]
n={f:len(open(os.path.join(R,f)).read().split('\n')) for f in files}
bad=0;seen=collections.Counter()
for p in sorted(glob.glob('/verif/lean/Verif/**/*.lean',recursive=True)):
    for ln,l in enumerate(open(p),1):
        for m in re.finditer(r'([A-Za-z_/0-9]+\.py)((?::|, ?)(\d+)(?:[-–](\d+))?)',l):
            f=m.group(1); c=[x for x in files if x==f or x.endswith('/'+f)]
            a=int(m.group(3)); b=int(m.group(4) or a)
            if not c: print(p,ln,'NOFILE',f); bad+=1; continue
            ok=[x for x in c if b<=n[x]]
            if not ok: print(p,ln,'RANGE',m.group(0),{x:n[x] for x in c}); bad+=1
            if len(ok)>1: seen[f]+=1
print(bad,'bad; ambiguous:',dict(seen))
# second check: a citation followed by a back-quoted function name must cover the line of its def
import ast
defs={}
for f in files:
    t=ast.parse(open(os.path.join(R,f)).read())
    for x in ast.walk(t):
        if isinstance(x,(ast.FunctionDef,ast.ClassDef)):
            defs.setdefault(f,{}).setdefault(x.name,[]).append((x.lineno,x.end_lineno, min([x.lineno]+[d.lineno for d in x.decorator_list])))
import sys
for p in sorted(glob.glob('/verif/lean/Verif/**/*.lean',recursive=True)):
    s=open(p).read()
    for m in re.finditer(r'([A-Za-z_/0-9]+\.py):(\d+)(?:[-–](\d+))?(?:, [^`]{0,40})?:? `([A-Za-z_0-9.]+)',s):
        f=m.group(1); name=m.group(4).split('.')[-1]
        a=int(m.group(2)); b=int(m.group(3) or a)
        c=[x for x in files if (x==f or x.endswith('/'+f)) and name in defs.get(x,{})]
        if not c: continue
        ok=any(lo2-1<=a<=lo+1 and abs(b-hi)<=1 for x in c for lo,hi,lo2 in defs[x][name])
        part=any(lo2<=a and b<=hi+1 for x in c for lo,hi,lo2 in defs[x][name])
        if not ok and (not part or len(sys.argv)>1): print('DEF',os.path.relpath(p,'/verif/lean/Verif'),s[:m.start()].count('\n')+1,m.group(0)[:80],[defs[x][name] for x in c])
