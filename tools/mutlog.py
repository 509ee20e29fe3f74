#!/usr/bin/env python3
"""Writes seeded/LOG.jsonl from the raw results of mutate.py (last result per id wins; the first survivors keep their note)."""
import json
res={}
for l in open('/tmp/mut_results.jsonl'):
    r=json.loads(l)
    old=res.get(r['id'])
    if old and old['outcome']=='SURVIVED' and r['outcome']!='SURVIVED':
        r['first_outcome']='SURVIVED'
        r['tightened']=r['tightened'] or [t for t in r['failed'] if t.startswith('C')]
    res[r['id']]=r
notes=json.load(open('/verif/seeded/notes.json'))
with open('/verif/seeded/LOG.jsonl','w') as g:
    for k in sorted(res):
        r=res[k]
        if k in notes: r.update(notes[k])
        g.write(json.dumps(r)+'\n')
print(len(res), sum(r['outcome']=='SURVIVED' for r in res.values()))
