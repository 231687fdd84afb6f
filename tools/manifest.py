#!/usr/bin/env python3
"""Write MANIFEST.json from the table below."""
import json, os
C = {}
def claim(p, status, theorems, note):
    C[p] = {"property": p, "status": status, "theorems": theorems, "note": note}
exec(open(os.path.join(os.path.dirname(__file__), "claims.py")).read())
json.dump({"claims": [C[k] for k in sorted(C)]}, open(os.path.join(os.path.dirname(__file__), "..", "MANIFEST.json"), "w"), indent=1)
