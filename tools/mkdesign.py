#!/usr/bin/env python3
"""Rebuild DESIGN.md: sections 1-4 from design_head.md, the tables from properties.jsonl, MANIFEST.json and the
axioms that Lean reports (needs a finished build in lean/)."""
import json, os, re, subprocess, tempfile
root = os.path.dirname(os.path.dirname(os.path.abspath(__file__)))
props = [json.loads(l) for l in open(f"{root}/properties.jsonl") if l.strip()]
claims = {c["property"]: c for c in json.load(open(f"{root}/MANIFEST.json"))["claims"]}
with tempfile.NamedTemporaryFile("w", suffix=".lean", delete=False) as f:
    f.write("import Verif\n")
    for c in claims.values():
        for t in c["theorems"]:
            f.write(f"#print axioms {t}\n")
out = subprocess.run(["lake", "env", "lean", f.name], cwd=f"{root}/lean", capture_output=True, text=True).stdout
out = re.sub(r"\n\s+", " ", out)
ax = {}
for line in out.splitlines():
    m = re.match(r"'(\S+)' (does not depend on any axioms|depends on axioms: \[(.*)\])", line)
    assert m, line
    ax[m.group(1)] = m.group(3) or "none"
short = lambda t: t.rsplit(".", 1)[1]
esc = lambda s: s.replace("|", "\\|")
res = open(f"{root}/tools/design_head.md").read()
res += "\n## 5. The properties\n\nModules: the theorems of a property are in `Props/<module>.lean`, the model in\n`Model/<module>.lean` and the modules it imports. Full statements: `properties.jsonl`.\n\n"
res += "| id | property | status | module | what is proved, and what is not |\n|---|---|---|---|---|\n"
for p in props:
    c = claims.get(p["id"])
    if not c:
        res += f"| {p['id']} | {esc(p['title'])} | not yet | | |\n"
        continue
    mods = sorted({t.split(".")[1] for t in c["theorems"]})
    note = c["note"].strip() or "As stated."
    res += f"| {p['id']} | {esc(p['title'])} | {c['status']} | {', '.join(mods)} | {esc(note)} Theorems: {', '.join(short(t) for t in c['theorems'])}. |\n"
res += "\n## 6. Axioms per theorem\n\n"
groups = {}
for t, a in ax.items():
    groups.setdefault(a, []).append(t)
for a, ts in sorted(groups.items(), key=lambda x: len(x[0])):
    res += f"### {a}\n\n" + ", ".join(t.removeprefix("Aiok8s.") for t in ts) + ".\n\n"
open(f"{root}/DESIGN.md", "w").write(res)
print(len(ax), {k: len(v) for k, v in groups.items()})
