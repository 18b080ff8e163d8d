#!/usr/bin/env python3
"""Writes AXIOMS.md: the axioms of every theorem named in MANIFEST.json (via #print axioms in a scratch file)."""
import json, subprocess, re, os
root = os.path.join(os.path.dirname(os.path.abspath(__file__)), "..")
man = json.load(open(root + "/MANIFEST.json"))
names = [t for c in man["claims"] for t in c["theorems"]]
src = "import Verif\n" + "".join(f"#print axioms {n}\n" for n in names)
open("/tmp/ax.lean", "w").write(src)
out = subprocess.run(["lake", "env", "lean", "/tmp/ax.lean"], cwd=root + "/lean", capture_output=True, text=True).stdout
out = re.sub(r"\n\s+", " ", out)
d = {}
for l in out.split("\n"):
    m = re.match(r"'(.*)' depends on axioms: \[(.*)\]", l)
    if m: d[m.group(1)] = m.group(2)
    m = re.match(r"'(.*)' does not depend on any axioms", l)
    if m: d[m.group(1)] = "(none)"
missing = [n for n in names if n not in d]
groups = {}
for n in names:
    if n in d: groups.setdefault(d[n], []).append(n)
with open(root + "/AXIOMS.md", "w") as f:
    f.write("# Axioms of every theorem in MANIFEST.json\n\nGenerated by tools/axioms.py with `#print axioms`.\n")
    for k, v in sorted(groups.items()):
        f.write(f"\n## {k}: {len(v)} theorems\n\n" + ", ".join("`%s`" % x for x in v) + "\n")
print({k: len(v) for k, v in groups.items()}, "missing", missing)
