#!/usr/bin/env python3
"""Apply wrong-program edits to a scratch copy of the model and record which theorems notice.

usage: mutate.py MUTATIONS.py   where MUTATIONS.py defines M = [(file, definition, old, new, claim), ...]
The log line is appended to /verif/seeded/LOG.jsonl; "SURVIVED" is printed when nothing failed."""
import json, os, re, subprocess, sys, time
SRC, DST = "/verif/lean", "/tmp/mut/lean"
os.makedirs("/tmp/mut", exist_ok=True)
subprocess.run(f"rm -rf {DST} && cp -a {SRC} {DST}", shell=True, check=True)
ns = {}
exec(open(sys.argv[1]).read(), ns)
claims = json.load(open("/verif/MANIFEST.json"))["claims"]
allthms = [t for c in claims for t in c["theorems"]]
def decls(path):
    out = []
    for n, l in enumerate(open(path), 1):
        m = re.match(r"^(?:@\[.*\] *)?(?:private |noncomputable )*(theorem|lemma|def|example|instance)\s*([^\s(:{\[]*)", l)
        if m: out.append((n, m.group(2) if m.group(1) != "example" else "example"))
    return out
def enclosing(path, line):
    name = "?"
    for n, d in decls(path):
        if n <= line: name = d
    return name
for (f, d, old, new, claim) in ns["M"]:
    path = f"{DST}/{f}"
    orig = open(path).read()
    if orig.count(old) < 1:
        print("NOT FOUND", f, d, repr(old)); continue
    if orig.count(old) > 1: print("  (ambiguous, first occurrence)", d)
    open(path, "w").write(orig.replace(old, new, 1))
    t0 = time.time()
    r = subprocess.run(["timeout", "900", "lake", "build", "Verif"], cwd=DST, capture_output=True, text=True)
    txt = r.stdout + r.stderr
    failed, seen = [], set()
    files = set()
    for m in re.finditer(r"error: (Verif/[\w/]+\.lean):(\d+):", txt):
        files.add(m.group(1))
        k = (m.group(1), enclosing(f"{DST}/{m.group(1)}", int(m.group(2))))
        if k not in seen:
            seen.add(k); failed.append(k[1] + " (" + m.group(1)[6:-5] + ")")
    if r.returncode and not failed: failed = ["(the build did not finish within 900 s)"]
    # theorems of the manifest in the failing files that rest on a failing proof
    trans = []
    for ff in files:
        body = open(f"{DST}/{ff}").read()
        names = [t for t in allthms if re.search(r"^(?:theorem|lemma) (?:[\w.]*\.)?" + re.escape(t.split(".")[-1]) + r"(?=[\s({\[:])", body, re.M)]
        tmp = f"{DST}/MutTmp.lean"
        open(tmp, "w").write(body + "\n" + "\n".join(f"#print axioms {t}" for t in names) + "\n")
        q = subprocess.run(["lake", "env", "lean", "MutTmp.lean"], cwd=DST, capture_output=True, text=True)
        os.remove(tmp)
        for t in names:
            m = re.search(r"'" + re.escape(t) + r"' depends on axioms: \[([^\]]*)\]", q.stdout)
            if (m and "sorryAx" in m.group(1)) or re.search(r"[Uu]nknown (constant|identifier) [`']" + re.escape(t), q.stdout):
                trans.append(t)
    # claims in modules that import a failing module, hence cannot be accepted either
    bad = {"Verif." + ff[6:-5].replace("/", ".") for ff in files}
    blocked, grew = set(), True
    imps = {}
    for root, _, fs in os.walk(f"{DST}/Verif"):
        for x in fs:
            if x.endswith(".lean"):
                q = os.path.join(root, x)
                imps[q[len(DST)+1:-5].replace("/", ".")] = (q, set(re.findall(r"^import (Verif\.[\w.]+)", open(q).read(), re.M)))
    while grew:
        grew = False
        for mname, (q, im) in imps.items():
            if mname not in bad and mname not in blocked and im & (bad | blocked):
                blocked.add(mname); grew = True
    btexts = [open(imps[b][0]).read() for b in blocked]
    blockedclaims = [t for t in allthms if any(re.search(r"^(?:theorem|lemma) (?:[\w.]*\.)?" + re.escape(t.split(".")[-1]) + r"(?=[\s({\[:])", b, re.M) for b in btexts)]
    open(path, "w").write(orig)
    dt = time.time() - t0
    status = "ok" if failed else "SURVIVED"
    print(f"[{status}] {d}: {claim} | {dt:.0f}s | direct={failed} claims={trans} blocked={len(blockedclaims)}", flush=True)
    rec = {"definition": f"{f}: {d}", "edit": f"{old.strip()}  ->  {new.strip()}", "breaks": claim,
           "failed": failed, "failed_claims": trans, "claims_in_modules_importing_the_failure": blockedclaims, "tightened": []}
    open("/verif/seeded/LOG.jsonl", "a").write(json.dumps(rec, ensure_ascii=False) + "\n")
