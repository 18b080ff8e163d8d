#!/usr/bin/env python3
"""Writes /verif/MANIFEST.json.  A claim lists every theorem Verif/**.lean whose name starts with its id."""
import json, os, re, glob
ROOT = os.path.join(os.path.dirname(os.path.abspath(__file__)), "..")
ids = [json.loads(l)["id"] for l in open(os.path.join(ROOT, "properties.jsonl"))]
thms = {i: [] for i in ids}
for f in sorted(glob.glob(os.path.join(ROOT, "lean/Verif/**/*.lean"), recursive=True)):
    src = open(f).read()
    stack = []
    for line in src.split("\n"):
        m = re.match(r"namespace (\S+)", line)
        if m: stack.append(m.group(1)); continue
        m = re.match(r"(?:noncomputable )?section(?: (\S+))?", line)
        if m: stack.append(None); continue
        m = re.match(r"end(?: (\S+))?\s*$", line)
        if m: stack.pop(); continue
        m = re.match(r"(?:private )?theorem (C\d+)(_\w+)", line)
        if m and m.group(1) in thms:
            thms[m.group(1)].append(".".join([x for x in stack if x] + [m.group(1) + m.group(2)]))
exec(open(os.path.join(ROOT, "tools/status.py")).read())   # STATUS: id -> (status, note)
claims = []
for i in ids:
    st, note = STATUS.get(i, ("partial" if thms[i] else None, ""))
    if st is None:
        print("no claim yet:", i); continue
    if not thms[i] and st != "not_applicable":
        print("WARNING no theorem for", i); continue
    claims.append(dict(property=i, status=st, theorems=thms[i], note=note))
json.dump({"claims": claims}, open(os.path.join(ROOT, "MANIFEST.json"), "w"), indent=1, ensure_ascii=False)
print(len(claims), "claims,", sum(len(c["theorems"]) for c in claims), "theorems")
