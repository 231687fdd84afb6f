#!/usr/bin/env python3
"""Write DESIGN.md: the hand-written head, one section per property, and the axioms of every theorem of the manifest."""
import json, re, subprocess, os
V = "/verif"
props = [json.loads(l) for l in open(V + "/properties.jsonl")]
claims = {c["property"]: c for c in json.load(open(V + "/MANIFEST.json"))["claims"]}
where, doc = {}, {}
for root, _, fs in os.walk(V + "/lean/Verif"):
    for x in fs:
        if not x.endswith(".lean"): continue
        p = os.path.join(root, x)
        txt = open(p).read()
        for m in re.finditer(r"(/--(?:(?!-/).)*-/\s*)?^(?:@\[[^\n]*\] *)?theorem ([\w.']+)", txt, re.M | re.S):
            n = m.group(2).split(".")[-1]
            where.setdefault(n, []).append((os.path.relpath(p, V + "/lean"), txt))
ts = []
for c in claims.values():
    for t in c["theorems"]:
        if t not in ts: ts.append(t)
open("/tmp/Ax.lean", "w").write("import Verif\n" + "\n".join("#print axioms " + t for t in ts) + "\n")
out = subprocess.run(["lake", "env", "lean", "/tmp/Ax.lean"], cwd=V + "/lean", capture_output=True, text=True).stdout
ax = {}
for m in re.finditer(r"'([^\s]+)' (?:depends on axioms: \[([^\]]*)\]|does not depend on any axioms)", out):
    ax[m.group(1)] = re.sub(r"\s+", " ", m.group(2) or "none")
missing = [t for t in ts if t not in ax]
assert not missing, missing
bad = {a for v in ax.values() for a in v.split(", ")} - {"propext", "Classical.choice", "Quot.sound", "none"}
assert not bad, bad
def module(t):
    n = t.split(".")[-1]
    c = [p for p, txt in where.get(n, []) if t.rsplit(".", 1)[0].startswith("Verif")]
    best = [p for p, txt in where.get(n, []) if re.search(r"^namespace " + re.escape(t.rsplit(".", 1)[0]) + r"\b", txt, re.M)]
    return (best or c or ["?"])[0]
o = [open(V + "/tools/design_head.md").read().rstrip(), "", "## 6. Properties", "",
     "For each property: what is modelled and where the theorems are, how far it is proved, and what is missing or false.", ""]
for p in props:
    c = claims[p["id"]]
    mods = []
    for t in c["theorems"]:
        if module(t) not in mods: mods.append(module(t))
    o.append(f"**{p['id']} {p['title']}** ({c['status']}).  Code: {'; '.join(p['anchors'])}.  Modules: {', '.join('`'+m+'`' for m in mods)}.")
    o.append("Theorems: " + ", ".join("`" + t.split(".")[-1] + "`" for t in c["theorems"]) + ".  " + c.get("note", ""))
    o.append("")
o += ["## Appendix: axioms of each theorem", ""]
groups = {}
for t in ts: groups.setdefault(ax[t], []).append(t)
for g, l in sorted(groups.items(), key=lambda x: len(x[1])):
    o.append(f"**{g}** ({len(l)} theorems): " + ", ".join("`" + t + "`" for t in l) + ".")
    o.append("")
open(V + "/DESIGN.md", "w").write("\n".join(o))
print(len(ts), "theorems")
