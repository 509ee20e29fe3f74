import json,sys
# usage: addprop.py file.json  (list of {prop:{}, note:{}, design:"row", viol:"row" or None, imports:[]})
items=json.load(open(sys.argv[1]))
notes=json.load(open('/verif/tools/notes.json'))
d=open('/verif/DESIGN.md').read().split('\n')
have=[json.loads(l)['id'] for l in open('/verif/properties.jsonl') if l.strip()]
with open('/verif/properties.jsonl','a') as f:
    for it in items:
        if it['prop']['id'] not in have:
            f.write(json.dumps(it['prop'])+'\n')
root=open('/verif/lean/Verif.lean').read()
for it in items:
    i=it['prop']['id']
    notes[i]=it['note']
    idx=max(k for k,l in enumerate(d) if l.startswith('| C') and l.count('|')>=4 and k<[j for j,x in enumerate(d) if x.startswith('## 4') or x.startswith('## 4.')][0])
    if not any(l.startswith('| %s |'%i) for l in d[:idx+1]): d.insert(idx+1,it['design'])
    if it.get('viol'):
        sec=[j for j,x in enumerate(d) if x.startswith('## 4')][0]
        k=[j for j in range(sec,len(d)) if d[j].startswith('| C')][-1]
        d.insert(k+1,it['viol'])
    for m in it.get('imports',[]):
        if 'import '+m+'\n' not in root: root+='import '+m+'\n'
open('/verif/lean/Verif.lean','w').write(root)
json.dump(notes,open('/verif/tools/notes.json','w'),indent=1,ensure_ascii=False)
open('/verif/DESIGN.md','w').write('\n'.join(d))
