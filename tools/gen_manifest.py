#!/usr/bin/env python3
# Writes MANIFEST.json: claims listed in tools/claims.py.
import json, os, runpy
here = os.path.dirname(os.path.abspath(__file__))
claims = runpy.run_path(os.path.join(here, "claims.py"))["CLAIMS"]
out = [{"property": p, "status": st, "theorems": th, "note": n} for (p, st, th, n) in claims]
json.dump({"claims": out}, open(os.path.join(here, "..", "MANIFEST.json"), "w"), indent=1, ensure_ascii=False)
