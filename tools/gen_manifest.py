#!/usr/bin/env python3
"""MANIFEST.json from the theorem names Cnn_* found in lean/Verif/Props and the notes below."""
import json, re, glob, os
root = os.path.join(os.path.dirname(os.path.abspath(__file__)), "..")
NOTES = {}
STATUS = {}
exec(open(os.path.join(root, "tools", "notes.py")).read())
thms = {}
for f in sorted(glob.glob(os.path.join(root, "lean/Verif/Props/*.lean"))):
    ns = []                                   # open namespaces and sections
    for m in re.finditer(r"^(?:(namespace|(?:noncomputable )?section)\b *([\w.]*)|(end)\b.*|theorem\s+((C\d\d+)_\w+))", open(f).read(), re.M):
        if m.group(1): ns.append(m.group(2) if m.group(1) == "namespace" else "")
        elif m.group(3): ns.pop()
        else: thms.setdefault(m.group(5), []).append(".".join([x for x in ns if x] + [m.group(4)]))
claims = []
for line in open(os.path.join(root, "properties.jsonl")):
    p = json.loads(line)
    i = p["id"]
    t = thms.get(i, [])
    if i in STATUS: st = STATUS[i]
    elif not t: st = None
    elif any(x.endswith("_partial") for x in t): st = "partial"
    else: st = "proved"
    if st is None:
        print("no theorem yet:", i, p["title"]); continue
    claims.append(dict(property=i, status=st, theorems=t, note=NOTES.get(i, "")))
json.dump(dict(claims=claims), open(os.path.join(root, "MANIFEST.json"), "w"), indent=1, ensure_ascii=False)
print(len(claims), "claims;", sum(c["status"]=="proved" for c in claims), "proved")
