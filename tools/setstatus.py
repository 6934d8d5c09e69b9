#!/usr/bin/env python3
"""usage: setstatus.py Cnn status note  -- record a status in status.json and regenerate MANIFEST.json"""
import json, sys, os, subprocess
root = os.path.dirname(os.path.dirname(os.path.abspath(__file__)))
p = f"{root}/tools/status.json"
s = json.load(open(p))
s[sys.argv[1]] = [sys.argv[2], sys.argv[3]]
json.dump(dict(sorted(s.items())), open(p, "w"), indent=0, ensure_ascii=False)
subprocess.run([sys.executable, f"{root}/tools/manifest.py"])
