"""Append results of tools/seed.py to seeded/LOG.jsonl (skips mutants that did not compile)."""
import json, os, sys
here = os.path.dirname(os.path.dirname(os.path.abspath(__file__)))
log = os.path.join(here, "seeded", "LOG.jsonl")
seen = set()
if os.path.exists(log):
    for line in open(log):
        d = json.loads(line)
        seen.add((d["definition"], d["edit"]))
with open(log, "a") as out:
    for path in sys.argv[1:]:
        for line in open(path):
            d = json.loads(line)
            if d.get("theorems_failed") is None or (d["definition"], d["edit"]) in seen:
                print("skip", d["definition"], d["edit"])
                continue
            out.write(json.dumps({
                "definition": d["definition"], "edit": d["edit"], "claim": d["claim"],
                "theorems_failed": d["theorems_failed"],
                "theorems_tightened": d.get("theorems_tightened", [])}) + "\n")
