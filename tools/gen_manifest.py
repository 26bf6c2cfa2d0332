#!/usr/bin/env python3
"""Source of MANIFEST.json and lean/Verif/Audit.lean.

c(id, status, [theorem names], note); short names are qualified by `ns`."""
import json, pathlib, re, sys
ROOT = pathlib.Path(__file__).resolve().parent.parent
C = []
NS = ""
def ns(x):
    global NS
    NS = x
def c(pid, status, theorems, note=""):
    C.append(dict(property=pid, status=status,
                  theorems=[t if t.startswith("Verif.") else f"{NS}.{t}" for t in theorems], note=note))

exec((ROOT/"tools"/"claims.py").read_text())

props = [json.loads(l)["id"] for l in (ROOT/"properties.jsonl").read_text().splitlines()]
C.sort(key=lambda x: props.index(x["property"]))
# every theorem must be declared in a Props file
decl = {}
mods = []
for f in sorted((ROOT/"lean"/"Verif").rglob("*.lean")):
    if f.name == "Audit.lean": continue
    mods.append("Verif." + ".".join(f.relative_to(ROOT/"lean"/"Verif").with_suffix("").parts))
    cur = []
    for line in f.read_text().splitlines():
        m = re.match(r"namespace (\S+)", line)
        if m: cur.append(m.group(1))
        m = re.match(r"end (\S+)", line)
        if m and cur and cur[-1] == m.group(1): cur.pop()
        m = re.match(r"(?:private )?theorem (\S+)", line)
        if m: decl[".".join(cur + [m.group(1)])] = f
bad = [t for x in C for t in x["theorems"] if t not in decl]
if bad: sys.exit("unknown theorems: %s" % bad)
named = {t for x in C for t in x["theorems"]}
extra = [t for t in decl if re.search(r"\.C\d\d_", t) and t not in named]
if extra: print("not in manifest:", *extra, sep="\n  ")
(ROOT/"MANIFEST.json").write_text(json.dumps({"claims": C}, indent=1, ensure_ascii=False) + "\n")
audit = ["-- Generated by tools/gen_manifest.py: axioms of every property theorem."]
audit += sorted({"import Verif." + ".".join(decl[t].relative_to(ROOT/"lean"/"Verif").with_suffix("").parts) for t in named})
audit += ["#print axioms " + t for x in C for t in x["theorems"]]
(ROOT/"lean"/"Verif"/"Audit.lean").write_text("\n".join(audit) + "\n")
(ROOT/"lean"/"Verif.lean").write_text("".join("import %s\n" % m for m in mods + ["Verif.Audit"]))
print(len(C), "claims;", len(named), "theorems; missing:", [p for p in props if p not in {x["property"] for x in C}])
