#!/bin/sh
# Print the axioms every claimed theorem depends on to AXIOMS.txt (run after `lake build`).
root=$(dirname "$(dirname "$(readlink -f "$0")")")
f=$(mktemp --suffix=.lean)
python3 - "$root" > "$f" <<'PY'
import json, sys
m = json.load(open(sys.argv[1] + "/MANIFEST.json"))
print("import Verif")
for c in m["claims"]:
    for t in c["theorems"]:
        print("#print axioms " + t)
PY
(cd "$root/lean" && lake env lean "$f") | python3 -c "
import re, sys
s = ' '.join(sys.stdin.read().split())
print(re.sub(r\" ?'([^' ]+)' (depends on|does not)\", r'\n\1 \2', s).strip())" > "$root/AXIOMS.txt"
rm -f "$f"
echo "theorems: $(wc -l < "$root/AXIOMS.txt")"
grep -o '\[[^]]*\]' "$root/AXIOMS.txt" | sort | uniq -c
