#!/usr/bin/env python3
"""Rebuild MANIFEST.json: theorem names are collected from lean/Verif/Props, status and notes
from tools/status.json ({"C01": ["proved", "note"], ...})."""
import json, os, re
root = os.path.dirname(os.path.dirname(os.path.abspath(__file__)))
status = json.load(open(f"{root}/tools/status.json"))
props = [json.loads(l)["id"] for l in open(f"{root}/properties.jsonl") if l.strip()]
found = {}
d = f"{root}/lean/Verif/Props"
for fn in sorted(os.listdir(d)):
    if not fn.endswith(".lean"):
        continue
    ns = []
    for line in open(f"{d}/{fn}"):
        m = re.fullmatch(r"namespace (Aiok8s\S*)\n", line)
        if m:
            ns.append(m.group(1))
        m = re.fullmatch(r"end (\S+)\n", line)
        if m and ns and ns[-1] == m.group(1):
            ns.pop()
        m = re.match(r"theorem ((C\d\d+)_\S+)", line)
        if m:
            found.setdefault(m.group(2), []).append(".".join(ns + [m.group(1)]))
claims = []
for p in props:
    if p in found:
        st, note = status.get(p, ["proved", ""])
        claims.append({"property": p, "status": st, "theorems": found[p], "note": note})
for p in found:
    assert p in props, p
for p in status:
    assert p in found or status[p][0] == "not_applicable", p
json.dump({"claims": claims}, open(f"{root}/MANIFEST.json", "w"), indent=1, ensure_ascii=False)
print(len(claims), "claims,", sum(len(c["theorems"]) for c in claims), "theorems; missing:",
      [p for p in props if p not in found])
