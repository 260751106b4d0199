#!/usr/bin/env python3
"""Collects the property theorems (Lalib.Props.Cnn_*) and writes /verif/MANIFEST.json."""
import re, json, glob, os
root = os.path.join(os.path.dirname(os.path.abspath(__file__)), "..")
thms = {}
for f in sorted(glob.glob(root + "/lean/Verif/Props/*.lean")):
    for m in re.finditer(r"^theorem (C\d{2,3})_(\w+)", open(f).read(), re.M):
        thms.setdefault(m.group(1), []).append(f"Lalib.Props.{m.group(1)}_{m.group(2)}")
notes = json.load(open(root + "/tools/notes.json"))
props = [json.loads(l)["id"] for l in open(root + "/properties.jsonl") if l.strip()]
claims = []
for p in props:
    st, note = notes.get(p, ["proved", ""])
    if not thms.get(p): 
        st, note = "partial", "not yet modelled"
    claims.append(dict(property=p, status=st, theorems=thms.get(p, []), note=note))
json.dump({"claims": claims}, open(root + "/MANIFEST.json", "w"), indent=1)
for p in props: print(p, len(thms.get(p, [])), end="; ")
print(); print("unlisted:", [k for k in thms if k not in props])
