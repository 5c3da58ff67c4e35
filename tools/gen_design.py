#!/usr/bin/env python3
"""Writes DESIGN.md: tools/design_head.md + tables generated from properties.jsonl, claims, the citations in
the model and `#print axioms` (tools/axioms.txt, refreshed by tools/axioms.sh)."""
import ast, json, os, re
ROOT = "/verif"; REPO = "/repo/pydatastructs"
exec(open(ROOT + "/tools/claims.py").read())
props = [json.loads(l) for l in open(ROOT + "/properties.jsonl")]
# ---------------------------------------------------------------- coverage of /repo
DIRS = {"Distribution": "linear_data_structures", "Dp": "linear_data_structures", "Heap": "linear_data_structures",
        "Intro": "linear_data_structures", "Matrix": "linear_data_structures", "Search": "linear_data_structures",
        "Sort": "linear_data_structures", "RangeQuery": "miscellaneous_data_structures", "Strings": "strings"}
paths = []
for d, _, fs in os.walk(REPO):
    if "tests" in d: continue
    for f in fs:
        if f.endswith(".hpp") or (f.endswith(".py") and ("_backend" not in d or f == "llvm_algorithms.py")): paths.append(os.path.relpath(os.path.join(d, f), REPO))
cites = {}      # path -> list of (lo, hi, model)
for f in sorted(os.listdir(ROOT + "/lean/Verif/Model")):
    src = open(ROOT + "/lean/Verif/Model/" + f).read(); mod = f[:-5]
    src = re.sub(r"/-!.*?-/", "", src, flags=re.S)   # module headers cite whole classes
    for mt in re.finditer(r"([\w/]*\b\w+\.(?:py|hpp)):?\s*((?:\d+(?:\s*[-–]\s*\d+)?(?:\s*,\s*)?)+)", src):
        name, ranges = mt.group(1).replace("/repo/pydatastructs/", ""), mt.group(2)
        cand = [p for p in paths if p == name or p.endswith("/" + name)]
        if len(cand) > 1:
            cand = [p for p in cand if p.startswith(DIRS.get(mod, "graphs"))]
        if len(cand) != 1: print("ambiguous", mod, name, cand); continue
        for r in re.findall(r"(\d+)(?:\s*[-–]\s*(\d+))?", ranges):
            lo = int(r[0]); hi = int(r[1] or r[0]); cites.setdefault(cand[0], []).append((lo, hi, mod))
cov = []; UNMODELLED = []
for p in sorted(paths):
    if p.endswith(".hpp"):
        ls = open(os.path.join(REPO, p)).read().split("\n"); done, miss = {}, []
        for k, l in enumerate(ls):
            mt = re.match(r"static [\w:<>*&\s]*?\b(\w+)\(", l)
            if not mt or l.rstrip().endswith(";"): continue
            end = next((j for j in range(k, len(ls)) if ls[j].startswith("}")), len(ls))
            nm = mt.group(1)
            if re.search(r"dealloc|___?str__|get_Py", nm): continue
            ms = sorted({m for a, b, m in cites.get(p, []) if a <= end + 1 and b >= k + 1})
            (done.__setitem__(nm, ms) if ms else miss.append(nm))
        if done: cov.append((p, done, miss))
        elif miss: UNMODELLED.append(p)
        continue
    t = ast.parse(open(os.path.join(REPO, p)).read()); done, miss = {}, []
    def visit(n, pre):
        if n.name in ("methods", "__str__", "__repr__"): return
        body = [s for s in n.body if not (isinstance(s, ast.Expr) and isinstance(s.value, ast.Constant))]
        if not body or all(isinstance(s, (ast.Pass, ast.Raise)) for s in body): return
        lo = body[0].lineno
        ms = sorted({m for a, b, m in cites.get(p, []) if a <= n.end_lineno and b >= n.lineno})
        (done.__setitem__(pre + n.name, ms) if ms else miss.append(pre + n.name))
    for n in t.body:
        if isinstance(n, ast.FunctionDef): visit(n, "")
        if isinstance(n, ast.ClassDef):
            for m in n.body:
                if isinstance(m, ast.FunctionDef): visit(m, n.name + ".")
    if done or miss: cov.append((p, done, miss))
# ---------------------------------------------------------------- axioms
ax = {}
for l in open(ROOT + "/tools/axioms.txt"):
    m = re.match(r"'Props\.(.*)' depends on axioms: \[(.*)\]", l)
    if m: ax[m.group(1)] = m.group(2)
    m = re.match(r"'Props\.(.*)' does not depend", l)
    if m: ax[m.group(1)] = ""
out = [open(ROOT + "/tools/design_head.md").read()]
w = out.append
PLANS = {}
exec(open(ROOT + "/tools/plans.py").read())
w("\n## Properties: what is modelled, how it is proved, status\n")
for q in props:
    st, th, note = CLAIMS.get(q["id"], ("planned", [], ""))
    w("* **%s** %s — *%s*. %s%s Theorems: %s.\n" % (q["id"], q["title"], st, (PLANS.get(q["id"], "") + " ") if q["id"] in PLANS else "",
      ((note[0].upper() + note[1:]).rstrip(".") + ".") if note else "", ", ".join("`%s`" % t for t in th)))
w("\n## What is modelled and what is not, function by function\n\n"
  "Generated from the citations in `lean/Verif/Model`; a function counts as modelled when a definition there cites lines of it. "
  "`methods` and `__str__` are never modelled.\n\n")
for p, done, miss in cov:
    mods = sorted({m for v in done.values() for m in v})
    w("* `%s` (%s)\n" % (p, ", ".join("Model/" + m for m in mods) if mods else "no model"))
    if done: w("  * modelled: %s\n" % ", ".join("`%s`" % k for k in done))
    if miss: w("  * not modelled: %s\n" % ", ".join("`%s`" % k for k in miss))
if UNMODELLED: w("* C++ files without any model: %s\n" % ", ".join("`%s`" % k for k in UNMODELLED))
w("\n## Axioms, per theorem of the manifest\n\n(from `#print axioms`; `tools/axioms.sh` refreshes the list)\n\n")
groups = {}
for t, a in ax.items(): groups.setdefault(a, []).append(t)
for a, ts in sorted(groups.items()):
    w("* %s: %s\n" % (("`" + a + "`") if a else "no axiom", ", ".join(ts)))
open(ROOT + "/DESIGN.md", "w").write("".join(out))
for p, done, miss in cov: print(p, len(done), "modelled; not:", miss)
