#!/usr/bin/env python3
"""Regenerate /verif/MANIFEST.json from the table below."""
import json, os
C = []
def claim(p, status, thms, note=""):
    C.append({"property": p, "status": status, "theorems": ["Arx." + t for t in thms], "note": note})

exec(open(os.path.join(os.path.dirname(__file__), "claims.py")).read())
json.dump({"claims": C}, open("/verif/MANIFEST.json", "w"), indent=1)
print(len(C), "claims")
