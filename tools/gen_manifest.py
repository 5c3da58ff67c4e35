#!/usr/bin/env python3
"""Writes MANIFEST.json and lean/Verif.lean."""
import json, os, re
ROOT = "/verif"
props = [json.loads(l)["id"] for l in open(ROOT + "/properties.jsonl")]
table = {}
exec(open(ROOT + "/tools/claims.py").read())
claims = []
for pid in props:
    if pid in CLAIMS:
        st, th, note = CLAIMS[pid]
        claims.append({"property": pid, "status": st, "theorems": th, "note": note})
json.dump({"claims": claims}, open(ROOT + "/MANIFEST.json", "w"), indent=1, ensure_ascii=False)
mods = []
for d, _, fs in os.walk(ROOT + "/lean/Verif"):
    for f in fs:
        if f.endswith(".lean"):
            mods.append(os.path.relpath(os.path.join(d, f), ROOT + "/lean")[:-5].replace("/", "."))
open(ROOT + "/lean/Verif.lean", "w").write("".join("import %s\n" % m for m in sorted(mods)))
# check that theorem names exist in the sources
src = "".join(open(os.path.join(ROOT + "/lean", m.replace(".", "/") + ".lean")).read() for m in mods)
for c in claims:
    for t in c["theorems"]:
        if not re.search(r"theorem\s+%s\b" % re.escape(t), src): print("missing", c["property"], t)
print(len(claims), "claims; unclaimed:", [p for p in props if p not in CLAIMS])
