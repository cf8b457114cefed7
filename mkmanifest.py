#!/usr/bin/env python3
"""Regenerate MANIFEST.json from the theorem names Cnn_… in lean/Verif/Props."""
import json, re, glob, os
here = os.path.dirname(os.path.abspath(__file__))
notes = json.load(open(os.path.join(here, "notes.json")))
thms = {}
for f in sorted(glob.glob(here + "/lean/Verif/Props/*.lean")):
    for m in re.finditer(r"^theorem (C(\d\d+)_\w+)", open(f).read(), re.M):
        thms.setdefault("C" + m.group(2), []).append(m.group(1))
claims = []
for line in open(here + "/properties.jsonl"):
    i = json.loads(line)["id"]
    t = thms.get(i, [])
    n = notes.get(i, {})
    if not t:
        claims.append({"property": i, "status": "partial", "theorems": [], "note": "not yet proved: " + n.get("note", "planned")})
        continue
    status = n.get("status") or ("partial" if any(x.endswith("_partial") for x in t) else "proved")
    claims.append({"property": i, "status": status, "theorems": t, "note": n.get("note", "")})
json.dump({"claims": claims}, open(here + "/MANIFEST.json", "w"), indent=1, ensure_ascii=False)
print(sum(c["status"] == "proved" for c in claims), "proved,", sum(len(c["theorems"]) for c in claims), "theorems; missing:", [c["property"] for c in claims if not c["theorems"]])
