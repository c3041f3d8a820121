"""Regenerate lean/Verif.lean and MANIFEST.json from the Lean sources.

Theorem names are collected from lean/Verif/Props (one `theorem Cnn_...` per claim
part); a property is "partial" when one of its theorems ends in `_partial`.
"""
import json
import pathlib
import re

root = pathlib.Path(__file__).resolve().parent.parent
lean = root / "lean"
mods = sorted(
    str(p.relative_to(lean))[:-5].replace("/", ".") for p in (lean / "Verif").rglob("*.lean")
)
(lean / "Verif.lean").write_text("".join(f"import {m}\n" for m in mods))

notes = json.loads((root / "tools" / "notes.json").read_text())
thms = {}
for p in sorted((lean / "Verif" / "Props").rglob("*.lean")):
    text = p.read_text()
    ns = re.search(r"^namespace (\S+)", text, re.M).group(1)
    for m in re.finditer(r"^(?:theorem|lemma) (C\d\d\d?)(_\w+)", text, re.M):
        thms.setdefault(m.group(1), []).append(f"{ns}.{m.group(1)}{m.group(2)}")

claims = []
for line in (root / "properties.jsonl").read_text().splitlines():
    pid = json.loads(line)["id"]
    names = thms.get(pid, [])
    if not names:
        print("no theorem yet:", pid)
        continue
    status = "partial" if any(n.endswith("_partial") for n in names) else "proved"
    claims.append(
        {"property": pid, "status": status, "theorems": names, "note": notes.get(pid, "")}
    )
(root / "MANIFEST.json").write_text(json.dumps({"claims": claims}, indent=1) + "\n")
print(len(claims), "claims", sum(c["status"] == "partial" for c in claims), "partial")
