#!/usr/bin/env python3
"""Writes MANIFEST.json.  STATUS maps a property to (status, theorems, note); the rest are listed as partial with no theorem yet."""
import json
STATUS = {}
exec(open('/verif/tools/status.py').read())
ids=[json.loads(l)['id'] for l in open('/verif/properties.jsonl')]
claims=[]
for i in ids:
    if i in STATUS:
        s,t,n=STATUS[i]
        claims.append({"property":i,"status":s,"theorems":t,"note":n})
    else:
        claims.append({"property":i,"status":"partial","theorems":[],"note":"not yet modelled"})
json.dump({"claims":claims},open('/verif/MANIFEST.json','w'),indent=1)
