#!/usr/bin/env python3
"""Regenerate MANIFEST.json from the theorem names C<nn>_... in lean/Verif/Props.

Status and notes come from tools/status.json: {"C01": ["proved", "note"], ...}.
"""
import json, os, re, glob
root = os.path.dirname(os.path.dirname(os.path.abspath(__file__)))
status = json.load(open(os.path.join(root, "tools/status.json")))
thms = {}
for f in sorted(glob.glob(os.path.join(root, "lean/Verif/Props/*.lean"))):
    for m in re.finditer(r"^theorem (C\d\d)(_\w+)", open(f).read(), re.M):
        thms.setdefault(m.group(1), []).append("JC.Props." + m.group(1) + m.group(2))
ids = [json.loads(l)["id"] for l in open(os.path.join(root, "properties.jsonl"))]
claims = []
for i in ids:
    if i not in thms:
        continue
    st, note = status.get(i, ["partial", ""])
    claims.append(dict(property=i, status=st, theorems=thms[i], note=note))
json.dump({"claims": claims}, open(os.path.join(root, "MANIFEST.json"), "w"), indent=1)
print(len(claims), "claims", sum(len(c["theorems"]) for c in claims), "theorems")
missing = [i for i in ids if i not in thms]
print("no theorems:", missing)
