#!/usr/bin/env python3
"""Collects the property theorems (named C<nn>_...) from lean/Verif/Props, writes MANIFEST.json and
lean/Verif/Audit.lean (which prints the axioms of each of them)."""
import json, os, re, glob
root = os.path.join(os.path.dirname(os.path.abspath(__file__)), "..")
notes = json.load(open(os.path.join(root, "tools", "notes.json")))
props = [json.loads(l)["id"] for l in open(os.path.join(root, "properties.jsonl"))]
thms = {p: [] for p in props}
mods = []
for f in sorted(glob.glob(os.path.join(root, "lean/Verif/Props/**/*.lean"), recursive=True)):
    ns = []
    found = False
    for line in open(f):
        m = re.match(r"namespace (\S+)", line)
        if m: ns.append(m.group(1))
        m = re.match(r"end (\S+)", line)
        if m and ns and ns[-1] == m.group(1): ns.pop()
        m = re.match(r"theorem (C(\d\d+)_\w+)", line)
        if m:
            thms["C" + m.group(2)].append(".".join(ns + [m.group(1)]))
            found = True
    if found: mods.append(os.path.relpath(f, os.path.join(root, "lean"))[:-5].replace("/", "."))
claims = []
for p in props:
    n = notes.get(p, {})
    t = thms[p]
    if not t: continue
    st = n.get("status")
    if st is None:
        st = "partial" if any("_partial" in x or "_false" in x for x in t) else "proved"
    claims.append({"property": p, "status": st, "theorems": t, "note": n.get("note", "")})
json.dump({"claims": claims}, open(os.path.join(root, "MANIFEST.json"), "w"), indent=1, ensure_ascii=False)
with open(os.path.join(root, "lean/Verif/Audit.lean"), "w") as f:
    for m in mods: f.write(f"import {m}\n")
    f.write("/-\nGenerated by tools/gen_manifest.py: the axioms of every property theorem.\n-/\n")
    for p in props:
        for t in thms[p]: f.write(f"#print axioms {t}\n")
miss = [p for p in props if not thms[p]]
print("claims", len(claims), "theorems", sum(len(t) for t in thms.values()), "missing", miss)
print({s: sum(c["status"] == s for c in claims) for s in ("proved", "partial")})
