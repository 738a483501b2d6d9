#!/usr/bin/env python3
"""Regenerates MANIFEST.json from the table below.  Run from /verif."""
import json

claims = []


def c(prop, status, theorems, note):
    claims.append({"property": prop, "status": status, "theorems": theorems, "note": note})


exec(open("tools/claims.py").read())
known = [json.loads(l)["id"] for l in open("properties.jsonl")]
have = [x["property"] for x in claims]
assert len(set(have)) == len(have), "duplicate claim"
for k in known:
    if k not in have:
        print("no claim yet for", k)
assert all(h in known for h in have)
json.dump({"claims": claims}, open("MANIFEST.json", "w"), indent=1, ensure_ascii=False)
