#!/usr/bin/env python3
"""Generate MANIFEST.json from the theorem names Cnn_* in lean/Verif/Props and tools/notes.json."""
import re, json, glob, os
root = os.path.dirname(os.path.dirname(os.path.abspath(__file__)))
notes = json.load(open(root + "/tools/notes.json"))
thms = {}
for f in sorted(glob.glob(root + "/lean/Verif/Props/*.lean")):
    ns = []
    for line in open(f):
        m = re.match(r"namespace (\S+)", line)
        if m: ns.append(m.group(1))
        m = re.match(r"end (\S+)", line)
        if m and ns and ns[-1] == m.group(1): ns.pop()
        m = re.match(r"(?:@\[[^\]]*\] )?theorem (C\d\d\w*)", line)
        if m:
            t = m.group(1)
            thms.setdefault(t[:3], []).append(".".join(ns + [t]))
props = [json.loads(l)["id"] for l in open(root + "/properties.jsonl")]
claims = []
for p in props:
    n = notes.get(p, {})
    ts = thms.get(p, [])
    if not ts and not n: continue
    st = n.get("status") or ("partial" if any(t.endswith("_partial") for t in ts) else "proved")
    claims.append({"property": p, "status": st, "theorems": ts, "note": n.get("note", "")})
json.dump({"claims": claims}, open(root + "/MANIFEST.json", "w"), indent=1)
print(len(claims), "claims; missing:", [p for p in props if p not in [c["property"] for c in claims]])
