#!/usr/bin/env python3
"""Regenerate MANIFEST.json from theorem names (theorem CNN_...) in lean/Verif, plus notes in tools/notes.json."""
import re, json, glob, os
root = os.path.dirname(os.path.dirname(os.path.abspath(__file__)))
props = [json.loads(l)["id"] for l in open(f"{root}/properties.jsonl")]
notes = json.load(open(f"{root}/tools/notes.json"))
th = {p: [] for p in props}
for f in sorted(glob.glob(f"{root}/lean/Verif/**/*.lean", recursive=True)):
    ns = []
    for line in open(f):
        m = re.match(r"namespace (\S+)", line)
        if m: ns.append(m.group(1))
        m = re.match(r"end (\S+)", line)
        if m and ns and ns[-1] == m.group(1): ns.pop()
        m = re.match(r"(?:protected |private )?theorem (C\d\d+)_(\S+)", line)
        if m:
            full = ".".join(ns + [f"{m.group(1)}_{m.group(2)}"])
            if m.group(1) not in th: raise SystemExit(f"unknown property {full}")
            th[m.group(1)].append(full)
claims = []
for p in props:
    n = notes.get(p, {})
    if not th[p] and n.get("status") != "not_applicable":
        continue
    st = n.get("status") or ("partial" if all(t.endswith("_partial") for t in th[p]) else "proved")
    claims.append({"property": p, "status": st, "theorems": th[p], "note": n.get("note", "")})
json.dump({"claims": claims}, open(f"{root}/MANIFEST.json", "w"), indent=1, ensure_ascii=False)
miss = [p for p in props if p not in {c["property"] for c in claims}]
print(len(claims), "claims; missing:", miss)
