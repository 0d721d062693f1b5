#!/usr/bin/env python3
"""Regenerates lean/Verif.lean and MANIFEST.json from the sources.

Property theorems are the theorems called Cnn_... in the *Props.lean files. tools/status.json gives the
status and note of each property."""
import json, pathlib, re

root = pathlib.Path(__file__).resolve().parent.parent
lean = root / "lean"
mods = sorted(".".join(p.relative_to(lean).with_suffix("").parts) for p in (lean / "Verif").rglob("*.lean"))
(lean / "Verif.lean").write_text("".join(f"import {m}\n" for m in mods))

found = {}
for p in sorted((lean / "Verif").rglob("*Props.lean")):
    ns = []
    for line in p.read_text().splitlines():
        if m := re.match(r"namespace (\S+)", line):
            ns.append(m.group(1))
        elif m := re.match(r"end (\S+)", line):
            if ns and ns[-1] == m.group(1):
                ns.pop()
        elif m := re.match(r"(?:noncomputable )?theorem ((C\d+)_\S+)", line):
            found.setdefault(m.group(2), []).append(".".join(ns + [m.group(1)]))

status = json.loads((root / "tools" / "status.json").read_text())
props = [json.loads(l)["id"] for l in (root / "properties.jsonl").read_text().splitlines() if l.strip()]
claims = []
for pid in props:
    thms = found.get(pid, [])
    s = status.get(pid, {})
    st = s.get("status") or ("partial" if any(t.endswith("_partial") for t in thms) else "proved")
    if not thms and st != "not_applicable":
        print("no theorem:", pid)
        continue
    claims.append({"property": pid, "status": st, "theorems": thms, "note": s.get("note", "")})
(root / "MANIFEST.json").write_text(json.dumps({"claims": claims}, indent=1, ensure_ascii=False) + "\n")
print({k: len(v) for k, v in found.items()})
