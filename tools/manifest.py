#!/usr/bin/env python3
"""Writes MANIFEST.json from the theorem names C<nn>_* found in lean/Verif/Props and the
notes below.  A property is `partial` if it is listed in PARTIAL."""
import glob, json, re, os
ROOT = os.path.dirname(os.path.dirname(os.path.abspath(__file__)))
NOTES = json.load(open(os.path.join(ROOT, "tools", "notes.json")))
props = [json.loads(l)["id"] for l in open(os.path.join(ROOT, "properties.jsonl"))]
thms = {}
for f in sorted(glob.glob(os.path.join(ROOT, "lean/Verif/Props/**/*.lean"), recursive=True)):
    ns = []
    for line in open(f):
        m = re.match(r"namespace (\S+)", line)
        if m: ns.append(m.group(1))
        m = re.match(r"end (\S+)", line)
        if m and ns and ns[-1] == m.group(1): ns.pop()
        m = re.match(r"theorem ((C\d\d+)_\S+)", line)
        if m: thms.setdefault(m.group(2), []).append(".".join(ns + [m.group(1)]))
claims = []
for p in props:
    n = NOTES.get(p, {})
    t = thms.get(p, [])
    if not t and n.get("status") != "not_applicable":
        continue
    claims.append({"property": p, "status": n.get("status", "proved"), "theorems": t, "note": n.get("note", "")})
json.dump({"claims": claims}, open(os.path.join(ROOT, "MANIFEST.json"), "w"), indent=1, ensure_ascii=False)
open(os.path.join(ROOT, "MANIFEST.json"), "a").write("\n")
print(len(claims), "claims,", sum(len(c["theorems"]) for c in claims), "theorems")
