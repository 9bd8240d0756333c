import json,sys
tight=json.loads(sys.argv[2]) if len(sys.argv)>2 else {}
seen={(json.loads(l)["definition"],json.loads(l)["edit"]) for l in open('/verif/seeded/LOG.jsonl')}
out=open('/verif/seeded/LOG.jsonl','a'); n=0
for l in open(sys.argv[1]):
    try: d=json.loads(l)
    except Exception: continue
    if 'definition' not in d: print('ERR',l[:200]);continue
    tf=d.get('theorems_failed') or []
    if d.get('stuck') and not tf:
        tf=[x for x in d['direct_errors'] if not x.startswith(('example','def'))]
    if not tf or d.get('broken_model'): print('SURV',d['definition'],d['edit'],d.get('broken_model'),d.get('direct_errors')); continue
    k=(d["definition"],d["edit"])
    if k in seen: continue
    seen.add(k)
    out.write(json.dumps({"definition":d["definition"],"edit":d["edit"],"claim":d["claim"],"theorems_failed":tf,"direct_errors":d["direct_errors"],"theorems_tightened":tight.get(d["edit"],[])})+"\n"); n+=1
print(n)
