#!/usr/bin/env python3
"""Turn the results of tools/mutate.py into seeded/LOG.jsonl. Run: python3 tools/mutlog.py RESULTS.jsonl"""
import json, os, sys
here = os.path.dirname(os.path.abspath(__file__))
remarks = json.load(open(os.path.join(here, "mutremarks.json")))
seen, out = {}, []
for line in open(sys.argv[1]):
    d = json.loads(line)
    key = (d["file"], d["old"], d["new"])
    for k in ("lost", "failed", "examples"): d[k] = d[k] or []
    r = remarks.get(d["what"], {})
    claim = r.get("breaks", d["breaks"])
    lost = sorted(set(x.split(".")[-1] for x in d["lost"]))
    props = sorted(x for x in set(y.split(".")[-1] for y in d["failed"]) if x[:1] == "C" and x[1:3].isdigit())
    claims_lost = set(x.split("_")[0] for x in lost + props)
    killed = all(c in claims_lost for c in claim) if claim else None
    e = dict(definition="%s (%s)" % (d["def"], d["file"]), edit=dict(old=d["old"], new=d["new"]), what=d["what"],
             breaks=claim, claims_lost=sorted(claims_lost), property_theorems_lost=sorted(set(lost + props)), theorems_failed=sorted(set(d["failed"])),
             examples_failed=sorted(set(d["examples"])),
             result="no claim is concerned" if killed is None else "killed" if killed else "survived",
             tightened=r.get("tightened", []))
    if "remark" in r: e["remark"] = r["remark"]
    if d.get("note"): e["note"] = d["note"]
    if key in seen and not r.get("keep_both"): out[seen[key]] = e
    else:
        seen[key] = len(out); out.append(e)
os.makedirs(os.path.join(here, "..", "seeded"), exist_ok=True)
with open(os.path.join(here, "..", "seeded", "LOG.jsonl"), "w") as f:
    for i, e in enumerate(out): f.write(json.dumps(dict(n=i + 1, **e), ensure_ascii=False) + "\n")
print(len(out), sum(e["result"] == "killed" for e in out), [e["what"] for e in out if e["result"] != "killed"])
