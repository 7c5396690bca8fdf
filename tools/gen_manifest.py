#!/usr/bin/env python3
"""Writes MANIFEST.json.  Checks that every named theorem exists in lean/Verif."""
import json, re, pathlib
root = pathlib.Path(__file__).resolve().parent.parent
claims = []
def c(prop, status, theorems, note):
    claims.append(dict(property=prop, status=status, theorems=["Flu." + t for t in theorems.split()], note=note))

exec((root / "tools" / "claims.py").read_text())

src = "\n".join(p.read_text() for p in (root / "lean" / "Verif").rglob("*.lean"))
names = set(re.findall(r"theorem\s+([A-Za-z0-9_.'₂]+)", src))
for k in claims:
    for t in k["theorems"]:
        short = t[len("Flu."):]
        assert short in names or any(short.endswith("." + n) for n in names), "missing theorem " + t
# Claims about reachable catalogues rest on the meaning of "reachable".
REACH = "'Reachable' as in DESIGN.md: valid UTF-8 data directory, no chunk saved onto the catalogue's own files (C87)."
for k in claims:
    heads = [m.group(0) for t in k["theorems"] for m in re.finditer(r"theorem\s+" + re.escape(t[len("Flu."):]) + r"\b.*?:=", src, re.S)]
    if any(re.search(r"\b(Reach|CleanReach|DLRun|DLStep|HonestRun|Steps)\b", h) for h in heads) and "'Reachable' as in DESIGN.md" not in k["note"]:
        k["note"] = (k["note"] + " " + REACH).strip()
props = [json.loads(l)["id"] for l in (root / "properties.jsonl").read_text().splitlines() if l.strip()]
have = {k["property"] for k in claims}
print("no claim yet:", [p for p in props if p not in have])
claims.sort(key=lambda k: k["property"])
(root / "MANIFEST.json").write_text(json.dumps(dict(claims=claims), indent=1) + "\n")
