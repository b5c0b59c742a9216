#!/usr/bin/env python3
"""Regenerate lean/Verif.lean (imports) and MANIFEST.json from the property files.

Property theorems are named Cnn_... and live in lean/Verif/Props.  tools/status.json gives, for each property,
its status and note."""
import json, os, re
root = os.path.dirname(os.path.dirname(os.path.abspath(__file__)))
lean = os.path.join(root, "lean")
mods = []
for d, _, fs in os.walk(os.path.join(lean, "Verif")):
    for f in fs:
        if f.endswith(".lean"):
            mods.append(os.path.relpath(os.path.join(d, f), lean)[:-5].replace("/", "."))
mods.sort()
open(os.path.join(lean, "Verif.lean"), "w").write("".join(f"import {m}\n" for m in mods))
thms = {}
for m in mods:
    if not m.startswith("Verif.Props."):
        continue
    ns = ""
    for line in open(os.path.join(lean, m.replace(".", "/") + ".lean")):
        g = re.match(r"namespace (\S+)", line)
        if g:
            ns = g.group(1)
        g = re.match(r"theorem ((C\d\d+)_\S*)", line)
        if g:
            thms.setdefault(g.group(2), []).append(f"{ns}.{g.group(1)}")
status = json.load(open(os.path.join(root, "tools", "status.json")))
props = [json.loads(l)["id"] for l in open(os.path.join(root, "properties.jsonl"))]
claims = []
missing = []
for p in props:
    st = status.get(p)
    if p in thms and st:
        claims.append({"property": p, "status": st[0], "theorems": thms[p], "note": st[1]})
    elif p in thms:
        print("no status for", p)
    elif st and st[0] == "not_applicable":
        claims.append({"property": p, "status": st[0], "theorems": [], "note": st[1]})
    else:
        missing.append(p)
json.dump({"claims": claims}, open(os.path.join(root, "MANIFEST.json"), "w"), indent=1)
print("no theorem yet:", " ".join(missing))
