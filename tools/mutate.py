#!/usr/bin/env python3
"""Apply wrong-program edits to a scratch copy of the model and record which theorems fail.

usage: mutate.py mutants.json [name-filter]
Each mutant: {"file": "Kalman/Model", "old": "...", "new": "...", "edit": "...", "claim": "C01: ..."}
Output: one JSON line per mutant on stdout; with --log they are appended to /verif/seeded/LOG.jsonl.
"""
import json, os, re, shutil, subprocess, sys

LIVE = "/verif/lean"
SRC = "/tmp/mut/src"
DST = "/tmp/mut/lean"
DECL = re.compile(r"^(?:@\[[^\]]*\]\s*)?(?:private |protected |noncomputable )*(theorem|lemma|def|abbrev|structure|inductive|instance|example|mutual)\s*([^\s:({\[]*)")

def modules():
    out = {}
    for r, _, fs in os.walk(f"{DST}/Verif"):
        for f in fs:
            if f.endswith(".lean"):
                p = os.path.join(r, f)
                m = os.path.relpath(p, DST)[:-5].replace("/", ".")
                out[m] = re.findall(r"^import (Verif\.\S+)", open(p).read(), re.M)
    return out

def downstream(mod, mods):
    res, todo = [], [mod]
    while todo:
        x = todo.pop()
        if x in res: continue
        res.append(x)
        todo += [m for m, im in mods.items() if x in im]
    return res

def enclosing(path, line):
    name = None
    for i, l in enumerate(open(path).read().split("\n"), 1):
        if i > line: break
        m = DECL.match(l)
        if m: name = (m.group(1), m.group(2) or m.group(1), i)
    return name

def definition_of(path, text):
    s = open(path).read()
    ln = s[: s.index(text)].count("\n") + 1 + text[: len(text) - len(text.lstrip("\n"))].count("\n")
    k = enclosing(path, ln)
    return k[1] if k else "?"

def blank_proof(path, line, done):
    """replace the proof of the declaration at `line` in the scratch copy by a hole; True if changed"""
    lines = open(path).read().split("\n")
    start = None
    for i, l in enumerate(lines[:line]):
        if DECL.match(l): start = i
    if start is None or (path, lines[start]) in done: return False
    done.add((path, lines[start]))
    kind = DECL.match(lines[start]).group(1)
    if kind not in ("theorem", "lemma", "example"): return False
    end = start + 1
    while end < len(lines) and not (lines[end] and (lines[end][0] in "/@#" or DECL.match(lines[end])
            or re.match(r"(namespace|end|section|open|variable|set_option)\b", lines[end]))): end += 1
    text = "\n".join(lines[start:end])
    if kind == "example":
        lines[start:end] = ["example : True := trivial"]
        open(path, "w").write("\n".join(lines))
        return True
    depth, pos, i = 0, None, 0
    while i < len(text):
        c = text[i]
        if c in "([{⟨": depth += 1
        elif c in ")]}⟩": depth -= 1
        elif depth == 0 and text.startswith(":=", i):
            ln = text[text.rfind("\n", 0, i) + 1:i].strip()
            if not re.match(r"(let|have)\b", ln) and not re.search(r"\blet \S+ $", text[:i]) :
                pos = i; break
        elif depth == 0 and text.startswith("\n  | ", i): pos = i; break
        i += 1
    if pos is None: return False
    lines[start:end] = (text[:pos].rstrip() + " := by " + "so" + "rry").split("\n")
    open(path, "w").write("\n".join(lines))
    return True

def c_theorems(mods):
    out = {}
    for mod in mods:
        cur = []
        for l in open(f"{DST}/{mod.replace('.', '/')}.lean"):
            m = re.match(r"^namespace (\S+)", l)
            if m: cur.append(m.group(1))
            m = re.match(r"^end (\S+)", l)
            if m and cur and cur[-1] == m.group(1): cur.pop()
            m = DECL.match(l)
            if m and m.group(1) == "theorem" and re.match(r"C\d\d", m.group(2)):
                out[".".join(cur + [m.group(2)])] = mod
    return out

def run(mu):
    mods = modules()
    mod = "Verif." + mu["file"].replace("/", ".")
    path = f"{DST}/Verif/{mu['file']}.lean"
    orig = open(f"{SRC}/Verif/{mu['file']}.lean").read()
    if orig.count(mu["old"]) != 1:
        return {"error": f"pattern occurs {orig.count(mu['old'])} times", **mu}
    d = definition_of(f"{SRC}/Verif/{mu['file']}.lean", mu["old"])
    open(path, "w").write(orig.replace(mu["old"], mu["new"]))
    ds = downstream(mod, mods)
    failed, broken, done, stuck = [], [], set(), False
    try:
        for rnd in range(12):
            r = subprocess.run(["lake", "build", *ds], cwd=DST, capture_output=True, text=True, timeout=3000)
            errs = re.findall(r"error: (Verif/\S+?\.lean):(\d+):", r.stdout + r.stderr)
            if not errs: break
            changed = False
            by = {}
            for f, l in errs: by.setdefault(f, set()).add(int(l))
            for f, ls in by.items():
                for l in sorted(ls, reverse=True):
                    k = enclosing(f"{DST}/{f}", l)
                    if not k: continue
                    nm = k[1] if k[0] in ("theorem", "lemma") else f"{k[0]} at {f}:{k[2]}"
                    if nm not in failed: failed.append(nm)
                    if f == f"Verif/{mu['file']}.lean" and k[0] not in ("theorem", "lemma", "example"):
                        broken.append(f"{f}:{l}")
                    changed |= blank_proof(f"{DST}/{f}", l, done)
            if broken: break
            if not changed: stuck = True; break
        cs = []
        if failed and not broken and not stuck:
            th = c_theorems(ds)
            tmp = f"{DST}/MutTmp.lean"
            open(tmp, "w").write("".join(f"import {m}\n" for m in sorted(set(th.values())))
                + "\n".join(f"#print axioms {q}" for q in th))
            r = subprocess.run(["lake", "env", "lean", tmp], cwd=DST, capture_output=True, text=True, timeout=1500)
            os.remove(tmp)
            for m in re.finditer(r"'([^']+)' depends on axioms: \[([^\]]*)\]", r.stdout + r.stderr):
                if "sorryAx" in m.group(2): cs.append(m.group(1).split(".")[-1])
        return {"definition": f"{mu['file']}.lean: {d}", "edit": mu["edit"], "claim": mu["claim"],
                "theorems_failed": sorted(cs), "direct_errors": failed[:8],
                "broken_model": broken, "stuck": stuck, "killed": bool(failed),
                "theorems_tightened": mu.get("tightened", [])}
    finally:
        for x in ds:
            p = x.replace(".", "/") + ".lean"
            t = open(f"{SRC}/{p}").read()
            if open(f"{DST}/{p}").read() != t: open(f"{DST}/{p}", "w").write(t)

def main():
    args = [a for a in sys.argv[1:] if a != "--log"]
    log = "--log" in sys.argv
    os.makedirs("/tmp/mut", exist_ok=True)
    shutil.rmtree(DST, ignore_errors=True); subprocess.run(["cp", "-a", LIVE, DST])
    shutil.rmtree(SRC, ignore_errors=True); os.makedirs(SRC); subprocess.run(["cp", "-a", LIVE + "/Verif", SRC + "/Verif"])
    for mu in json.load(open(args[0])):
        if len(args) > 1 and args[1] not in json.dumps(mu): continue
        r = run(mu)
        print(json.dumps(r, ensure_ascii=False), flush=True)
        if log and "error" not in r and not r["broken_model"] and r["theorems_failed"]:
            for k in ("broken_model", "stuck", "killed"): r.pop(k)
            with open("/verif/seeded/LOG.jsonl", "a") as f: f.write(json.dumps(r, ensure_ascii=False) + "\n")
main()
