#!/usr/bin/env python3
"""Regenerate AXIOMS.md: the axioms each theorem named in MANIFEST.json depends on."""
import json, re, subprocess, os
root = os.path.dirname(os.path.dirname(os.path.abspath(__file__)))
m = json.load(open(root + "/MANIFEST.json"))
names = []
for c in m["claims"]:
    for t in c["theorems"]:
        if t not in names: names.append(t)
src = "import Verif\n" + "".join(f"#print axioms {n}\n" for n in names)
open("/tmp/axioms.lean", "w").write(src)
out = subprocess.run(["lake", "env", "lean", "/tmp/axioms.lean"], cwd=root + "/lean", capture_output=True, text=True).stdout
out = re.sub(r"\n\s+", " ", out)
ax = {}
for l in out.splitlines():
    k = re.match(r"'(.*)' depends on axioms: \[(.*)\]", l)
    if k: ax[k.group(1)] = k.group(2)
    k = re.match(r"'(.*)' does not depend on any axioms", l)
    if k: ax[k.group(1)] = "none"
with open(root + "/AXIOMS.md", "w") as f:
    f.write("# Axioms of each theorem named in MANIFEST.json\n\nGenerated by tools/axioms.py from `#print axioms`.\n\n| Theorem | Axioms |\n|---|---|\n")
    for n in names: f.write(f"| `{n}` | {ax.get(n, '?')} |\n")
bad = [n for n in names if not set(ax.get(n, '?').replace(' ', '').split(',')) <= {"propext", "Classical.choice", "Quot.sound", "none"}]
print(len(names), "theorems;", "unexpected:", bad)
