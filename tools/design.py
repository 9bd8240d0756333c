import json
props=[json.loads(l) for l in open('/verif/properties.jsonl')]
plan=json.load(open('/verif/tools/plan.json'))
out=open('/verif/tools/head.md').read()
out+="\n## 4. Per-property plan\n\n"
for p in props:
    out+=f"### {p['id']} {p['title']}\n\n{plan.get(p['id'],'(to be planned)')}\n\n"
out+=open('/verif/tools/tail.md').read()
open('/verif/DESIGN.md','w').write(out)
