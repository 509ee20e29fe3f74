#!/usr/bin/env python3
"""Regenerates MANIFEST.json from the property theorems found in lean/Verif/Props and the notes below.
A property is "partial" iff it is listed in tools/notes.json with status partial."""
import re, json, glob, os
root = os.path.dirname(os.path.dirname(os.path.abspath(__file__)))
thms = {}
for f in sorted(glob.glob(root + '/lean/Verif/Props/*.lean')):
    ns = ''
    for l in open(f):
        m = re.match(r'\s*namespace\s+(\S+)', l)
        if m: ns = m.group(1)
        m = re.match(r'(?:protected |noncomputable |private )*theorem\s+(C\d\d\d?)(_\S+)', l)
        if m:
            thms.setdefault(m.group(1), []).append(ns + '.' + m.group(1) + m.group(2))
notes = json.load(open(root + '/tools/notes.json'))
props = [json.loads(l)['id'] for l in open(root + '/properties.jsonl') if l.strip()]
claims = []
for p in props:
    n = notes.get(p, {})
    t = thms.get(p, [])
    if not t and n.get('status') != 'not_applicable':
        continue
    claims.append({"property": p, "status": n.get('status', 'proved'), "theorems": t, "note": n.get('note', '')})
json.dump({"claims": claims}, open(root + '/MANIFEST.json', 'w'), indent=1)
print(len(claims), 'claims', sum(len(c['theorems']) for c in claims), 'theorems; missing:', [p for p in props if p not in thms])
