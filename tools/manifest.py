#!/usr/bin/env python3
"""Writes MANIFEST.json: theorem names come from lean/Verif/Props, notes from tools/notes.json."""
import glob, json, os, re
root = os.path.dirname(os.path.dirname(os.path.abspath(__file__)))
notes = json.load(open(f"{root}/tools/notes.json"))
thms = {}
for p in sorted(glob.glob(f"{root}/lean/Verif/Props/*.lean")):
    for m in re.finditer(r"^theorem (?:_root_\.Verif\.)?(C\d+)(_\w+'?)", open(p).read(), re.M):
        thms.setdefault(m[1], []).append("Verif." + m[1] + m[2])
claims, missing = [], []
for line in open(f"{root}/properties.jsonl"):
    pid = json.loads(line)["id"]
    ts = thms.get(pid, [])
    n = notes.get(pid, {})
    if isinstance(n, str):
        n = {"note": n}
    if not ts:
        missing.append(pid)
        continue
    bad = any("_partial" in t or "_violated" in t for t in ts)
    status, note = n.get("status", "partial" if bad else "proved"), n.get("note", "")
    claims.append({"property": pid, "status": status, "theorems": ts, "note": note})
json.dump({"claims": claims}, open(f"{root}/MANIFEST.json", "w"), indent=1)
print({s: sum(c["status"] == s for c in claims) for s in ("proved", "partial", "not_applicable")},
      "without theorem:", missing)
