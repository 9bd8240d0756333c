"""List functions of /repo/pymc_extras that no citation in the Lean model overlaps."""
import ast,os,re,sys,glob
cites={}
pat=re.compile(r'([A-Za-z_0-9/]+\.py):?\s*((?:\d+(?:-\d+)?(?:,\s*)?)+)?')
for f in glob.glob('/verif/lean/Verif/**/*.lean',recursive=True):
    s=open(f).read()
    for m in pat.finditer(s):
        if not m.group(2): continue
        for r in re.findall(r'(\d+)(?:-(\d+))?',m.group(2)):
            a=int(r[0]);b=int(r[1] or r[0])
            cites.setdefault(os.path.basename(m.group(1)),[]).append((m.group(1),a,b))
tot=unc=0
for root,_,fs in os.walk('/repo/pymc_extras'):
    for fn in sorted(fs):
        if not fn.endswith('.py'): continue
        p=os.path.join(root,fn)
        rel=os.path.relpath(p,'/repo')
        t=ast.parse(open(p).read())
        cs=[(a,b) for (q,a,b) in cites.get(fn,[]) if rel.endswith(q)]
        for n in ast.walk(t):
            if isinstance(n,(ast.FunctionDef,)):
                tot+=1
                if not any(a<=n.end_lineno and b>=n.lineno for a,b in cs):
                    unc+=1; print(f"{rel}:{n.lineno}-{n.end_lineno} {n.name}")
print(tot,unc)
