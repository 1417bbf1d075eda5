#!/usr/bin/env python3
"""usage: mutlog.py RAW.jsonl DEPS NOTES.json OUT.jsonl

Turns the raw log of mutate.py into seeded/LOG.jsonl.  DEPS has one line `claimed theorem: constants it uses` per theorem of MANIFEST.json.
`failing_proofs` are the declarations that no longer compile, `theorems_failed` the claimed theorems among them or depending on them.
(In a build with an error the modules above it are not compiled, so further theorems may be affected.)
NOTES.json: id -> {"tightened": [...], "note": "..."}.
"""
import json, sys
raw, deps, notes, out = sys.argv[1:5]
D = {}
for l in open(deps):
    if ":" in l:
        k, v = l.strip().split(":", 1)
        D[k] = set(v.split())
N = json.load(open(notes))
with open(out, "w") as h:
    for l in open(raw):
        if not l.strip():
            continue
        e = json.loads(l)
        f = [x for x in e["theorems_failed"]]
        names = {"Oranssi." + x for x in f} | {"Oranssi.Spec." + x for x in f} | {"Oranssi." + x.removeprefix("_root_.") for x in f}
        t = sorted(k.removeprefix("Oranssi.") for k, v in D.items() if v & names)
        n = N.get(e["id"], {})
        r = {"id": e["id"], "definition": e["definition"], "edit": e["edit"], "claim": e["claim"], "survived": e["survived"],
             "theorems_failed": t, "failing_proofs": f, "theorems_tightened": n.get("tightened", [])}
        if "note" in n:
            r["note"] = n["note"]
        h.write(json.dumps(r, ensure_ascii=False) + "\n")
        if not e["survived"] and not t:
            print(e["id"], "no claimed theorem depends on", f)
