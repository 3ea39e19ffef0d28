#!/usr/bin/env python3
"""Appends results of tools/mutate.py to seeded/LOG.jsonl.
Usage: mutlog.py OUT.jsonl [NOTES.json], NOTES mapping the mutant number to {"tightened": [...], "note": "..."}."""
import json, os, sys
log = os.path.join(os.path.dirname(os.path.abspath(__file__)), "..", "seeded", "LOG.jsonl")
notes = json.load(open(sys.argv[2])) if len(sys.argv) > 2 else {}
with open(log, "a") as f:
    for l in open(sys.argv[1]):
        r = json.loads(l)
        n = notes.get(str(r["k"]), {})
        failed = ["Verif." + x.replace(":", " : ") for x in r["fails"]]
        o = {"definition": r["definition"], "edit": r["edit"], "claim": r["claim"], "theorems_failed": failed,
             "theorems_tightened": n.get("tightened", [])}
        if "note" in n: o["note"] = n["note"]
        f.write(json.dumps(o, ensure_ascii=False) + "\n")
