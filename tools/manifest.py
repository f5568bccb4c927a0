#!/usr/bin/env python3
"""Writes MANIFEST.json, lean/Verif.lean and lean/Verif/Props/Axioms.lean from the property theorems in lean/Verif/Props."""
import glob, json, os, re
root = os.path.dirname(os.path.dirname(os.path.abspath(__file__)))
notes = json.load(open(f"{root}/tools/notes.json"))
thms = {}
mods = []
for f in sorted(glob.glob(f"{root}/lean/Verif/Props/*.lean")):
    if f.endswith("Axioms.lean"):
        continue
    s = open(f).read()
    names = re.findall(r"^theorem (C\d{2,3})(\w*)", s, re.M)
    if names:
        mods.append(os.path.basename(f)[:-5])
    for c, rest in names:
        thms.setdefault(c, []).append(f"Verif.Props.{c}{rest}")
claims = []
for line in open(f"{root}/properties.jsonl"):
    c = json.loads(line)["id"]
    if c not in thms:
        continue
    n = notes.get(c, {})
    part = any(t.endswith("_partial") for t in thms[c])
    claims.append({"property": c, "status": n.get("status", "partial" if part else "proved"),
                   "theorems": thms[c], "note": n.get("note", "")})
json.dump({"claims": claims}, open(f"{root}/MANIFEST.json", "w"), indent=1)
with open(f"{root}/lean/Verif/Props/Axioms.lean", "w") as o:
    for m in mods:
        o.write(f"import Verif.Props.{m}\n")
    o.write("\n/-! The axioms used by every property theorem (written by tools/manifest.py). -/\n\n")
    for cl in claims:
        for t in cl["theorems"]:
            o.write(f"#print axioms {t}\n")
ls = sorted(os.path.relpath(f, f"{root}/lean")[:-5].replace("/", ".") for f in glob.glob(f"{root}/lean/Verif/**/*.lean", recursive=True))
open(f"{root}/lean/Verif.lean", "w").write("".join(f"import {l}\n" for l in ls))
missing = [json.loads(l)["id"] for l in open(f"{root}/properties.jsonl") if json.loads(l)["id"] not in thms]
print(len(claims), "claims;", "missing:", *missing)
