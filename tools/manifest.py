#!/usr/bin/env python3
"""Regenerate MANIFEST.json from the theorem names (Cnn_...) in lean/Verif/Props*.lean and the
statuses/notes below (tools/status.json)."""
import json, re, glob, os
root = os.path.dirname(os.path.dirname(os.path.abspath(__file__)))
props = [json.loads(l) for l in open(f"{root}/properties.jsonl") if l.strip()]
thms = {}
for f in sorted(glob.glob(f"{root}/lean/Verif/Props*.lean")):
    ns = None
    src = open(f).read()
    for m in re.finditer(r"^theorem\s+(C\d+_\S+)", src, re.M):
        thms.setdefault(m.group(1).split("_")[0], []).append("Amino." + m.group(1))
status = json.load(open(f"{root}/tools/status.json"))
claims = []
for p in props:
    i = p["id"]
    st = status.get(i)
    if st is None:
        continue
    claims.append({"property": i, "status": st[0], "theorems": thms.get(i, []), "note": st[1]})
json.dump({"claims": claims}, open(f"{root}/MANIFEST.json", "w"), indent=1, ensure_ascii=False)
import collections
print(collections.Counter(c["status"] for c in claims), "missing:", *[p["id"] for p in props if p["id"] not in status])
