#!/usr/bin/env python3
"""Seed a wrong program: edit the model in a scratch copy, rebuild, report what fails.

usage: mutate.py MODULE DEFINITION CLAIM OLD NEW [TIGHTENED]
       mutate.py --joint DEFINITION CLAIM '[[MODULE, OLD, NEW], ...]' [TIGHTENED]
Replaces the only occurrence of OLD in Verif/MODULE.lean by NEW (in /tmp/mut/lean), rebuilds, and appends
the outcome to /verif/seeded/LOG.jsonl.
"""
import json, os, re, subprocess, sys, glob, shutil

SRC, DST = "/verif/lean", "/tmp/mut/lean"

def sync():
    subprocess.run(["rsync", "-a", "--delete", SRC + "/", DST + "/"], check=True) if shutil.which("rsync") else \
        subprocess.run(f"mkdir -p /tmp/mut && rm -rf {DST} && cp -a {SRC} {DST}", shell=True, check=True)

def decl_at(path, line):
    src = open(path).read().split("\n")
    for i in range(min(line, len(src)) - 1, -1, -1):
        m = re.match(r"(?:@\[[^\]]*\]\s*)?(?:private |protected )?(theorem|lemma|def|instance|example|inductive|structure|abbrev)\b\s*([^\s:({\[]*)", src[i])
        if m:
            return m.group(2) if m.group(1) != "example" else "example@%d" % (i + 1)
    return "?"

def imports(mod):
    return re.findall(r"^import Verif\.(\w+)", open(f"{DST}/Verif/{mod}.lean").read(), re.M)

def main():
    if sys.argv[1] == "--joint":
        defn, claim, edits = sys.argv[2], sys.argv[3], json.loads(sys.argv[4])
        rest = sys.argv[5:]
    else:
        mod, defn, claim, old, new = sys.argv[1:6]
        edits, rest = [[mod, old, new]], sys.argv[6:]
        defn = f"{mod}.{defn}"
    tight = rest[0].split(",") if rest and rest[0] else []
    sync()
    for mod, old, new in edits:
        p = f"{DST}/Verif/{mod}.lean"
        s = open(p).read()
        if s.count(old) != 1:
            sys.exit("OLD occurs %d times" % s.count(old))
        open(p, "w").write(s.replace(old, new))
    r = subprocess.run(["lake", "build"], cwd=DST, capture_output=True, text=True)
    out = r.stdout + r.stderr
    failed = []
    for m in re.finditer(r"error: (?:\S*/)?Verif/(\w+)\.lean:(\d+):\d+", out):
        d = m.group(1) + "." + decl_at(f"{DST}/Verif/{m.group(1)}.lean", int(m.group(2)))
        if d not in failed:
            failed.append(d)
    if r.returncode and not failed:  # a prover process was killed
        failed = [f"{m}.(killed)" for m in re.findall(r"Building Verif\.(\w+)|Verif\.(\w+) \(", out)[-1:] for m in m if m] or ["?.(build failed)"]
    bad = {f.split(".")[0] for f in failed}
    mods = [os.path.basename(x)[:-5] for x in glob.glob(f"{DST}/Verif/*.lean")]
    blocked = set(bad)
    while True:
        more = {m for m in mods if m not in blocked and any(i in blocked for i in imports(m))}
        if not more:
            break
        blocked |= more
    entry = {"definition": defn, "edit": "; ".join(f"{old.strip()}  =>  {new.strip()}" for _, old, new in edits), "claim": claim,
             "failed": failed, "modules_no_longer_built": sorted(m for m in blocked - bad),
             "survived": not failed, "tightened": tight}
    with open("/verif/seeded/LOG.jsonl", "a") as f:
        f.write(json.dumps(entry) + "\n")
    print("SURVIVED" if not failed else "killed", defn, failed[:8])

main()
