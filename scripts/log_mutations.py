#!/usr/bin/env python3
"""Append the results of scripts/mutate.py to seeded/LOG.jsonl: log_mutations.py MUTATIONS.json [TIGHTENED.json]

TIGHTENED.json maps ids of mutations to the theorems that were tightened because they survived. An attempt that ended
without a verdict is logged too, with a note saying so. `proofs_broken` are the declarations whose own proofs failed;
`theorems_failed` are the theorems of the manifest that rest on one of them."""
import json, os, sys
muts = {m["id"]: m for m in json.load(open(sys.argv[1]))}
tight = json.load(open(sys.argv[2])) if len(sys.argv) > 2 else {}
log = os.path.join(os.path.dirname(os.path.abspath(__file__)), "..", "seeded", "LOG.jsonl")
seen = {(o["definition"], o["edit"], json.dumps(o.get("diff"))) for o in map(json.loads, open(log))}
res = {}
for line in open(sys.argv[1] + ".out"):
    o = json.loads(line)
    res[o["id"]] = o
def diff(m):
    if "edits" in m:
        return [{"file": "lean/Verif/" + p, "old": a, "new": b} for p, a, b in m["edits"]]
    return {"old": m["old"], "new": m["new"]}


with open(log, "a") as f:
    for i, o in res.items():
        m = muts[i]
        if (m["definition"], m["edit"], json.dumps(diff(m))) in seen:
            continue
        short = lambda l: [n.split("BCT.Props.")[-1] for n in l]
        claim = m["claim"] + (" (" + ", ".join(m["breaks"]) + ")" if m["breaks"] else " (no property broken)")
        if o["fatal"]:
            f.write(json.dumps({"definition": m["definition"], "file": "lean/Verif/" + m["file"], "edit": m["edit"],
                "diff": diff(m), "claim_broken": claim, "theorems_failed": [],
                "theorems_tightened": tight.get(i, []),
                "note": "no verdict: " + str(o["fatal"][0]).strip()[:200]}, ensure_ascii=False) + "\n")
            continue
        f.write(json.dumps({"definition": m["definition"], "file": "lean/Verif/" + m["file"], "edit": m["edit"],
            "diff": diff(m), "claim_broken": claim, "theorems_failed": short(o["failed"]),
            "proofs_broken": o["broken"] + o["deleted"],
            "survived_of_claim": {k: short(v) for k, v in o["survived_of_claim"].items() if v},
            "theorems_tightened": tight.get(i, [])}, ensure_ascii=False) + "\n")
