#!/usr/bin/env python3
"""Check that citations "file.go:a-b ... `func`" in the Lean sources point at the named function."""
import re, glob, os
root = os.path.dirname(os.path.dirname(os.path.abspath(__file__)))
src = {}
for d in ["", "cmd/aminoscan/"]:
    for f in glob.glob("/repo/" + d + "*.go"):
        lines = open(f).read().split("\n")
        fun, cur = {}, None
        for i, l in enumerate(lines, 1):
            m = re.match(r"func (?:\([^)]*\) )?(\w+)", l)
            if m: cur = m.group(1); fun[cur] = [i, i]
            if cur and l.startswith("}"): fun[cur][1] = i; cur = None
        src[os.path.basename(f)] = fun
for f in sorted(glob.glob(f"{root}/lean/Verif/*.lean")):
    for m in re.finditer(r"([\w-]+\.go):(\d+)(?:-(\d+))?[^`\n]{0,12}`(\w+)`", open(f).read()):
        g, a, b, n = m.group(1), int(m.group(2)), int(m.group(3) or m.group(2)), m.group(4)
        if g in src and n in src[g]:
            lo, hi = src[g][n]
            if not (lo - 8 <= a and b <= hi + 1):
                print(os.path.basename(f), m.group(0), "is at", lo, hi)
