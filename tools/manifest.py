#!/usr/bin/env python3
"""Regenerate MANIFEST.json from the property theorems (names starting with Cnn_) in lean/Verif/Props
and from tools/notes.json (status overrides and notes)."""
import json, re, glob, os
root = os.path.dirname(os.path.dirname(os.path.abspath(__file__)))
notes = json.load(open(os.path.join(root, "tools/notes.json")))
thms = {}
for f in sorted(glob.glob(os.path.join(root, "lean/Verif/Props/**/*.lean"), recursive=True)):
    ns = []
    for line in open(f):
        m = re.match(r"namespace\s+(\S+)", line)
        if m: ns.append(m.group(1))
        m = re.match(r"end\s+(\S+)", line)
        if m and ns and ns[-1] == m.group(1): ns.pop()
        m = re.match(r"(?:@\[[^\]]*\]\s*)?theorem\s+(_root_\.Algebraics\.)?((C\d\d)_\S+)", line)
        if m:
            full = "Algebraics." + m.group(2) if m.group(1) else ".".join(ns + [m.group(2)])
            thms.setdefault(m.group(3), []).append(full)
claims = []
for line in open(os.path.join(root, "properties.jsonl")):
    if not line.strip(): continue
    pid = json.loads(line)["id"]
    t = thms.get(pid, [])
    n = notes.get(pid, {})
    if not t and n.get("status") != "not_applicable": continue
    status = n.get("status") or ("partial" if any(x.endswith("_partial") for x in t) else "proved")
    claims.append({"property": pid, "status": status, "theorems": t, "note": n.get("note", "")})
json.dump({"claims": claims}, open(os.path.join(root, "MANIFEST.json"), "w"), indent=1, ensure_ascii=False)
print(len(claims), "claims", sum(len(c["theorems"]) for c in claims), "theorems")
