"""append properties: reads JSON list from stdin; fields id,title,statement,quantifier,why_tests_cant,anchors,plan"""
import json,sys
P='/verif/properties.jsonl'
props=[json.loads(l) for l in open(P)]
idx={p['id']:i for i,p in enumerate(props)}
plan=json.load(open('/verif/tools/plan.json'))
for q in json.load(sys.stdin):
    pl=q.pop('plan',None)
    if pl: plan[q['id']]=pl
    if q['id'] in idx: props[idx[q['id']]].update(q)
    else:
        idx[q['id']]=len(props); props.append(q)
open(P,'w').write(''.join(json.dumps(p,ensure_ascii=False)+'\n' for p in props))
json.dump(plan,open('/verif/tools/plan.json','w'),indent=0)
