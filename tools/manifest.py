#!/usr/bin/env python3
"""Regenerate /verif/MANIFEST.json from the theorem names (prefix Cnn_) in lean/Verif and the notes below."""
import json, os, re
ROOT = os.path.dirname(os.path.dirname(os.path.abspath(__file__)))
NOTES = json.load(open(os.path.join(ROOT, "tools", "notes.json")))
thms = {}
for dp, _, fs in sorted(os.walk(os.path.join(ROOT, "lean", "Verif"))):
    for f in sorted(fs):
        if not f.endswith(".lean"):
            continue
        ns = []
        for line in open(os.path.join(dp, f)):
            m = re.match(r"namespace\s+(\S+)", line)
            if m:
                ns.append(m.group(1))
            m = re.match(r"end\s+(\S+)", line)
            if m and ns and ns[-1] == m.group(1):
                ns.pop()
            m = re.match(r"(?:protected\s+)?theorem\s+((C\d+)_\S+)", line)
            if m:
                thms.setdefault(m.group(2), []).append(".".join(ns + [m.group(1)]))
claims = []
for line in open(os.path.join(ROOT, "properties.jsonl")):
    pid = json.loads(line)["id"]
    n = NOTES.get(pid, {})
    ts = thms.get(pid, [])
    if not ts and n.get("status") != "not_applicable":
        continue
    status = n.get("status") or ("partial" if any(t.endswith("_partial") for t in ts) else "proved")
    claims.append({"property": pid, "status": status, "theorems": ts, "note": n.get("note", "")})
with open(os.path.join(ROOT, "MANIFEST.json"), "w") as f:
    json.dump({"claims": claims}, f, indent=1)
    f.write("\n")
print(len(claims), "claims", sum(len(c["theorems"]) for c in claims), "theorems")
for p in NOTES:
    if p not in [c["property"] for c in claims]:
        print("note without claim", p)
