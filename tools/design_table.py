#!/usr/bin/env python3
"""Rewrite the status table at the end of DESIGN.md."""
import json, os
root = os.path.dirname(os.path.dirname(os.path.abspath(__file__)))
P = {json.loads(l)["id"]: json.loads(l) for l in open(f"{root}/properties.jsonl")}
M = json.load(open(f"{root}/MANIFEST.json"))
d = open(f"{root}/DESIGN.md").read()
mark = "Written from `MANIFEST.json` by `tools/design_table.py`.\n"
d = d[:d.index(mark) + len(mark)] + "\n| id | property | status | theorems | remarks |\n|---|---|---|---|---|\n"
for c in M["claims"]:
    ths = ", ".join("`%s`" % t.replace("Amino.", "") for t in c["theorems"])
    d += "| %s | %s | %s | %s | %s |\n" % (c["property"], P[c["property"]]["title"], c["status"], ths, c["note"])
open(f"{root}/DESIGN.md", "w").write(d)
