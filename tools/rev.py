import json,sys
n=0
for l in open(sys.argv[1]):
    try: d=json.loads(l)
    except Exception: continue
    n+=1
    if not d.get('theorems_failed'): print({k:(str(v)[:160]) for k,v in d.items() if k in('definition','edit','claim','direct_errors','broken_model','stuck')})
print(n)
