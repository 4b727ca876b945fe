#!/usr/bin/env python3
# Writes /verif/MANIFEST.json: collects the theorems named Cnn_* in lean/Verif/Props.
import json, os, re, glob
here = os.path.dirname(os.path.dirname(os.path.abspath(__file__)))
thms = {}
for f in sorted(glob.glob(here + "/lean/Verif/Props/*.lean")):
    for m in re.finditer(r"^theorem (C(\d+)_\w+)", open(f).read(), re.M):
        thms.setdefault("C" + m.group(2), []).append("Yot." + m.group(1))
exec(open(here + "/tools/notes.py").read())
claims = []
for l in open(here + "/properties.jsonl"):
    pid = json.loads(l)["id"]
    ts = thms.get(pid, [])
    st, note = NOTES.get(pid, ("partial", "not yet proved"))
    if ts:
        claims.append(dict(property=pid, status=st, theorems=ts, note=note))
json.dump(dict(claims=claims), open(here + "/MANIFEST.json", "w"), indent=1)
print(len(claims), "claims;", "missing:", [json.loads(l)["id"] for l in open(here + "/properties.jsonl") if json.loads(l)["id"] not in thms])
