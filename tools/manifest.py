#!/usr/bin/env python3
"""Regenerate MANIFEST.json from the theorem names in lean/Verif/Props and tools/notes.json."""
import json, pathlib, re
root = pathlib.Path(__file__).resolve().parent.parent
props = [json.loads(l)["id"] for l in (root / "properties.jsonl").read_text().splitlines() if l.strip()]
notes = json.loads((root / "tools" / "notes.json").read_text())
# Steps about the specifications alone; Props/Observed.lean states them for what the modules return.
STEPS = {"C16_range", "C17_grows", "C17_range", "C46_shape", "C50_operand", "C58_overshoot", "C78_apc_tight", "C80_stratified", "C88_agree"}
thms = {}
for f in sorted((root / "lean" / "Verif" / "Props").glob("*.lean")):
    for m in re.finditer(r"^theorem (C\d\d+)_(\w+)", f.read_text(), re.M):
        if f"{m.group(1)}_{m.group(2)}" in STEPS:
            continue
        thms.setdefault(m.group(1), []).append(f"Verif.Props.{m.group(1)}_{m.group(2)}")
claims = []
for p in props:
    if p not in thms:
        continue
    n = notes.get(p, {})
    claims.append({"property": p, "status": n.get("status", "proved"), "theorems": thms[p], "note": n.get("note", "")})
(root / "MANIFEST.json").write_text(json.dumps({"claims": claims}, indent=1, ensure_ascii=False) + "\n")
print(len(claims), "claims;", "missing:", [p for p in props if p not in thms])
