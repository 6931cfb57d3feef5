#!/usr/bin/env python3
"""Regenerates seeded/LOG.jsonl from the raw results of the mutation runs.  Usage: tools/seedlog.py results.jsonl"""
import json,sys
TIGHT={"r16":["C58_bounded"],"r20":["C59_shallow_first"],"l15":["C15_one_entry_each"],"p15":["C61_forms"],
"n11":["C19_selection"],"n13":["C19_selection"],"l21":["C60_entries"],"l22":["C60_entries"],"p12":["C60_requirement"]}
NOTE={"l20":"the edited definition was not used by anything; it has been removed",
"l19":"the edit did not apply; repeated as l19b"}
try: exec(open('tools/seednotes.py').read())
except FileNotFoundError: pass
out=open('seeded/LOG.jsonl','w')
for l in open(sys.argv[1]):
    d=json.loads(l)
    e=d['errs'] if isinstance(d['errs'],dict) else {}
    failed=[x.replace('theorem ','').replace('lemma ','') for v in e.values() for x in v]
    files=sorted(e)
    r={"id":d['id'],"definition":d['definition'],"file":"lean/"+d['file'],"edit":{"description":d['desc'],"from":d['old'],"to":d['new']},
       "claim":d['claim'],"outcome":{"KILLED":"build fails","OK":"still proves","INVALID":"edited file does not compile","BADEDIT":"edit did not apply"}[d['status']],
       "theorems_failed":failed,"in_files":files,"theorems_tightened":TIGHT.get(d['id'],[])}
    if d['id'] in NOTE: r["note"]=NOTE[d['id']]
    out.write(json.dumps(r)+'\n')
