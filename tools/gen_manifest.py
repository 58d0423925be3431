#!/usr/bin/env python3
"""Collect the property theorems (names starting with Cnn_) of all Props files into MANIFEST.json."""
import re, json, glob, os
root = os.path.dirname(os.path.dirname(os.path.abspath(__file__)))
thms = {}
for f in sorted(glob.glob(root + "/lean/Verif/**/*.lean", recursive=True)):
    ns = []
    for line in open(f):
        m = re.match(r"namespace (\S+)", line)
        if m: ns.append(m.group(1))
        m = re.match(r"end (\S+)", line)
        if m and ns and ns[-1] == m.group(1): ns.pop()
        m = re.match(r"(?:@\[.*?\] )?theorem (C\d\d)_(\S+)", line)
        if m:
            thms.setdefault(m.group(1), []).append(".".join(ns + [m.group(1) + "_" + m.group(2)]))
notes = json.load(open(root + "/tools/notes.json"))
claims = []
for l in open(root + "/properties.jsonl"):
    c = json.loads(l)["id"]
    n = notes.get(c, {})
    if c in thms:
        claims.append({"property": c, "status": n.get("status", "proved"), "theorems": thms[c], "note": n.get("note", "")})
    elif n.get("status") == "not_applicable":
        claims.append({"property": c, "status": "not_applicable", "theorems": [], "note": n["note"]})
    else:
        print("no theorem yet:", c)
json.dump({"claims": claims}, open(root + "/MANIFEST.json", "w"), indent=1)
