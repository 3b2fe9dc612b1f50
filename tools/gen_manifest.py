#!/usr/bin/env python3
"""Writes MANIFEST.json from the table below. Theorem names are relative to namespace JV."""
import json, os
C = []
def claim(pid, status, thms, note):
    C.append({"property": pid, "status": status, "theorems": ["JV." + t for t in thms.split()], "note": note})

exec(open(os.path.join(os.path.dirname(__file__), "claims.py")).read())

json.dump({"claims": C}, open(os.path.join(os.path.dirname(__file__), "..", "MANIFEST.json"), "w"), indent=1, ensure_ascii=False)
print(len(C), "claims")
