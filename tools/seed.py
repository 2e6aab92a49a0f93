#!/usr/bin/env python3
"""Run seeded-bug experiments.  seeds: python file defining SEEDS = [(definition, file, old, new, edit, claim, [property theorems expected to fail])].
Works in /tmp/scratch (a copy of lean/), appends to seeded/LOG.jsonl.
usage: seed.py seeds.py [start]"""
import json, os, re, subprocess, sys, shutil
ROOT = os.path.dirname(os.path.dirname(os.path.abspath(__file__)))
SCR = "/tmp/scratch/lean"
ns = {}
exec(open(sys.argv[1]).read(), ns)
os.makedirs("/tmp/scratch", exist_ok=True)
subprocess.run(["rsync", "-a", "--delete", os.path.join(ROOT, "lean") + "/", SCR + "/"], check=True) if shutil.which("rsync") else (shutil.rmtree(SCR, ignore_errors=True), subprocess.run(["cp", "-a", os.path.join(ROOT, "lean"), SCR], check=True))
def enclosing(f, line):
    L = open(os.path.join(SCR, f)).read().split("\n")
    for i in range(min(line, len(L)) - 1, -1, -1):
        m = re.match(r"(?:private |protected |noncomputable )*(theorem|def|example|instance|lemma)\s*(\S*)", L[i])
        if m:
            return (m.group(2) or "example") if m.group(1) != "example" else "example@%d" % (i + 1)
    return "?"
def imports(mod, cache={}):
    if mod not in cache:
        p = os.path.join(SCR, mod.replace(".", "/") + ".lean")
        cache[mod] = [l.split()[1] for l in open(p) if l.startswith("import Verif.")]
    return cache[mod]
def deps(mod):
    seen = set(); st = [mod]
    while st:
        m = st.pop()
        if m in seen: continue
        seen.add(m); st += imports(m)
    return seen
for k, (dfn, file, old, new, edit, claim, props) in enumerate(ns["SEEDS"]):
    if len(sys.argv) > 2 and k < int(sys.argv[2]): continue
    p = os.path.join(SCR, file)
    src = open(p).read()
    if src.count(old) != 1:
        print("SKIP", k, dfn, "occurrences", src.count(old)); continue
    open(p, "w").write(src.replace(old, new))
    # modules of the properties
    mods = set()
    for t in props:
        short = t.split(".")[-1]
        for m in [os.path.join(d, f) for d, _, fs in os.walk(SCR + "/Verif") for f in fs if f.endswith(".lean")]:
            if re.search(r"theorem\s+%s\b" % re.escape(short), open(m).read()):
                mods.add(os.path.relpath(m, SCR)[:-5].replace("/", "."))
    r = subprocess.run(["lake", "build"] + sorted(mods), cwd=SCR, capture_output=True, text=True)
    txt = r.stdout + r.stderr
    errs = []
    for m in re.finditer(r"^error: (Verif/\S+\.lean):(\d+):\d+", txt, re.M):
        e = m.group(1)[6:-5].replace("/", ".") + ":" + enclosing(m.group(1), int(m.group(2)))
        if e not in errs: errs.append(e)
    failedmods = {m.group(1) for m in re.finditer(r"^- (Verif\.\S+)", txt, re.M)}
    failed = []
    for t in props:
        short = t.split(".")[-1]
        for mod in mods:
            f = mod.replace(".", "/") + ".lean"
            if re.search(r"theorem\s+%s\b" % re.escape(short), open(os.path.join(SCR, f)).read()):
                own = any(e.endswith(":" + short) for e in errs)
                dep = any(d in failedmods for d in deps(mod) if d != mod) or any(e.startswith(mod[6:] + ":") for e in errs)
                if own or dep: failed.append(t)
    entry = dict(definition=dfn, file=file, edit=edit, claim_broken=claim, theorems_failed=failed, first_errors=errs[:6], theorems_tightened=[])
    print(k, "FAILED" if failed == props else "SURVIVED?", dfn, "|", edit, "|", errs[:4])
    with open(os.path.join(ROOT, "seeded", "LOG.jsonl"), "a") as g:
        g.write(json.dumps(entry) + "\n")
    open(p, "w").write(src)
