#!/usr/bin/env python3
"""Writes MANIFEST.json. CLAIMS: property -> (status, theorems, note)."""
import json, os
C = {}
def claim(p, status, thms, note=""):
    C[p] = dict(property=p, status=status, theorems=thms.split(), note=note)
exec(open(os.path.join(os.path.dirname(__file__), "claims.py")).read())
out = {"claims": [C[k] for k in sorted(C)]}
json.dump(out, open(os.path.join(os.path.dirname(__file__), "..", "MANIFEST.json"), "w"), indent=1)
