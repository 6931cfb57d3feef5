#!/usr/bin/env python3
"""Regenerates MANIFEST.json. Run from /verif."""
import json
C=[]
def c(p,st,th,note=""): C.append({"property":p,"status":st,"theorems":["Oro."+t for t in th],"note":note})
exec(open('tools/claims.py').read())
json.dump({"claims":C},open('MANIFEST.json','w'),indent=1)
ids=[json.loads(l)['id'] for l in open('properties.jsonl')]
have=[x['property'] for x in C]
print("missing:",[i for i in ids if i not in have], "unknown:",[h for h in have if h not in ids])
