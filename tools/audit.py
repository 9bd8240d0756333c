import json,re,sys,os
a,b=int(sys.argv[1]),int(sys.argv[2])
props={json.loads(l)['id']:json.loads(l) for l in open('properties.jsonl')}
man={c['property']:c for c in json.load(open('MANIFEST.json'))['claims']}
stm={}
for r,_,fs in os.walk('lean/Verif'):
    for f in fs:
        p=os.path.join(r,f); s=open(p).read()
        for m in re.finditer(r'^(?:@\[[^\]]*\]\s*)?(?:private |protected )*theorem\s+(C\d+_\S+)',s,re.M):
            e=re.search(r':=\s*(by|fun|\n|⟨|[A-Za-z])',s[m.start():])
            t=s[m.start():m.start()+ (e.start() if e else 500)]
            # take until ':= by' preferably
            e2=re.search(r':=\s*by\b',s[m.start():]); 
            nxt=re.search(r'^(theorem|lemma|example|def|end)\b',s[m.end():],re.M)
            if e2 and (not nxt or e2.start()<nxt.start()+m.end()-m.start()): t=s[m.start():m.start()+e2.start()]
            stm[m.group(1)]=(p[len('lean/Verif/'):],t)
for i in range(a,b+1):
    k=f'C{i:02d}'; d=props[k]; print('=====',k,d['title']); print(d['statement']); print('Q:',d['quantifier'])
    for t in man[k]['theorems']:
        n=t.split('.')[-1]
        if n in stm: print('--',stm[n][0]); print(stm[n][1].strip()[:1800])
        else: print('-- ??',t)
