#!/usr/bin/env python3
"""Write MANIFEST.json from CLAIMS, write lean/Verif.lean from the modules present.
With --axioms: print the axioms of every listed theorem (needs a finished build)."""
import json, glob, os, subprocess, sys
ROOT = os.path.dirname(os.path.dirname(os.path.abspath(__file__)))
CLAIMS = {}
def c(pid, status, theorems, note):
    CLAIMS[pid] = dict(property=pid, status=status, theorems=theorems, note=note)
exec(open(os.path.join(ROOT, "tools", "claims.py")).read())
ids = [json.loads(l)["id"] for l in open(os.path.join(ROOT, "properties.jsonl"))]
out = []
for i in ids:
    if i in CLAIMS:
        out.append(CLAIMS[i])
    else:
        out.append(dict(property=i, status="partial", theorems=[], note="not modelled yet"))
for i in CLAIMS:
    assert i in ids, i
json.dump({"claims": out}, open(os.path.join(ROOT, "MANIFEST.json"), "w"), indent=1)
mods = sorted(m[:-5].replace("/", ".") for m in
              (os.path.relpath(f, os.path.join(ROOT, "lean")) for f in
               glob.glob(os.path.join(ROOT, "lean", "Verif", "**", "*.lean"), recursive=True)))
with open(os.path.join(ROOT, "lean", "Verif.lean"), "w") as f:
    for m in mods:
        f.write("import %s\n" % m)
ths = sorted({t for cl in out for t in cl["theorems"]})
print(len(ids), "properties;", sum(1 for x in out if x["theorems"]), "with theorems;", len(ths), "theorems")
if "--axioms" in sys.argv:
    tmp = "/tmp/axioms_check.lean"
    with open(tmp, "w") as f:
        f.write("import Verif\n")
        for t in ths:
            f.write("#print axioms %s\n" % t)
    r = subprocess.run(["lake", "env", "lean", tmp], cwd=os.path.join(ROOT, "lean"), capture_output=True, text=True)
    txt = (r.stdout + r.stderr).replace("\n  ", " ").replace("\n ", " ")
    bad = 0
    for line in txt.splitlines():
        l = line
        ax = l.split("depends on axioms: [")[-1].rstrip("]").split(", ") if "depends on axioms" in l else []
        if "does not depend" in l: ax = []
        elif "depends on axioms" not in l: print("??", l); bad += 1
        if any(a not in ("propext", "Classical.choice", "Quot.sound") for a in ax):
            print("BAD", l); bad += 1
    print("axioms checked,", bad, "problems")
    D = os.path.join(ROOT, "DESIGN.md")
    text = open(D).read().split("## Axioms of each theorem")[0].rstrip() + "\n\n## Axioms of each theorem\n\nFrom `#print axioms` (P = `propext`, C = `Classical.choice`, Q = `Quot.sound`).\n\n"
    groups = {}
    for line in txt.splitlines():
        name = line.split("'")[1] if "'" in line else line
        ax = line.split("depends on axioms: [")[-1].rstrip("]").split(", ") if "depends on axioms" in line else []
        key = ", ".join(k for k, a in (("P", "propext"), ("C", "Classical.choice"), ("Q", "Quot.sound")) if a in ax) or "none"
        groups.setdefault(key, []).append(name.replace("Verif.", "", 1))
    for k in sorted(groups):
        text += "* %s: %s\n" % (k, ", ".join("`%s`" % n for n in sorted(groups[k])))
    open(D, "w").write(text)
