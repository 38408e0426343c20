#!/usr/bin/env python3
"""Write MANIFEST.json from the property theorems in lean/Verif.

A property theorem is named Cnn_...; its status is partial when one of its theorems has the suffix
_partial, unless the table below says otherwise.
"""
import glob
import json
import os
import re

root = os.path.dirname(os.path.dirname(os.path.abspath(__file__)))
ids = [json.loads(l)["id"] for l in open(f"{root}/properties.jsonl")]
notes = json.load(open(f"{root}/tools/notes.json"))

found = {}
for path in sorted(glob.glob(f"{root}/lean/Verif/*.lean")):
    ns = []
    for line in open(path):
        m = re.match(r"namespace (\S+)", line)
        if m:
            ns.append(m.group(1))
        m = re.match(r"end (\S+)", line)
        if m and ns and ns[-1] == m.group(1):
            ns.pop()
        m = re.match(r"theorem (C\d\d)(_\w+)", line)
        if m:
            found.setdefault(m.group(1), []).append(".".join(ns + [m.group(1) + m.group(2)]))

claims = []
for i in ids:
    n = notes.get(i, {})
    names = found.get(i, [])
    if not names:
        if n.get("status") == "not_applicable":
            claims.append({"property": i, "status": "not_applicable", "theorems": [], "note": n["note"]})
        continue
    part = any(t.endswith("_partial") for t in names)
    status = n.get("status", "partial" if part else "proved")
    claims.append({"property": i, "status": status, "theorems": names, "note": n.get("note", "")})
json.dump({"claims": claims}, open(f"{root}/MANIFEST.json", "w"), indent=1, ensure_ascii=False)
print(len(claims), "claims,", sum(len(c["theorems"]) for c in claims), "theorems; no theorem yet:",
      " ".join(i for i in ids if i not in {c["property"] for c in claims}))
