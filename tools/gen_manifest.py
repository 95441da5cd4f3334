#!/usr/bin/env python3
"""Writes /verif/MANIFEST.json from properties.jsonl, the theorem names found in lean/Verif/Props and the notes below.
Fails if a property has no theorem or a named theorem does not exist."""
import glob, json, os, re
ROOT = os.path.join(os.path.dirname(os.path.abspath(__file__)), "..")
NOTES = json.load(open(os.path.join(ROOT, "tools", "notes.json")))
names = {}
for f in sorted(glob.glob(os.path.join(ROOT, "lean/Verif/Props/*.lean"))):
    for m in re.finditer(r"^theorem (C\d\d\d?)(_\w+)?(?=[\s:({\[])", open(f).read(), re.M):
        names.setdefault(m.group(1), []).append("Verif." + m.group(1) + (m.group(2) or ""))
claims = []
for line in open(os.path.join(ROOT, "properties.jsonl")):
    i = json.loads(line)["id"]
    ts = names.pop(i, None)
    assert ts, f"no theorem for {i}"
    partial = any(t.endswith("_partial") for t in ts)
    n = NOTES.get(i, "")
    if isinstance(n, dict):
        partial, n = n["status"] == "partial", n["note"]
    assert n or not partial, f"no note for partial {i}"
    claims.append(dict(property=i, status="partial" if partial else "proved", theorems=ts, note=n))
assert not names, f"theorems without property: {names}"
json.dump({"claims": claims}, open(os.path.join(ROOT, "MANIFEST.json"), "w"), indent=1)
print(len(claims), "claims,", sum(c["status"] == "partial" for c in claims), "partial,", sum(len(c["theorems"]) for c in claims), "theorems")
