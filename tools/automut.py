#!/usr/bin/env python3
"""Automatic seeded bugs: usage automut.py OUT.json N SEED [FILE with names of definitions].  Token-level edits of the definitions in lean/Verif/Model, one per mutant, sampled
round-robin over the definitions."""
import re,json,random,sys,glob,os
out,n,seed=sys.argv[1],int(sys.argv[2]),int(sys.argv[3])
rules=[(r' < ',' ≤ ','strict comparison made lax'),(r' ≤ ',' < ','lax comparison made strict'),(r' > ',' ≥ ','strict comparison made lax'),
 (r' ≥ ',' > ','lax comparison made strict'),(r' \+ 1\b','','+ 1 dropped'),(r' - 1\b','','- 1 dropped'),(r' \+ 2\b',' + 1','+ 2 became + 1'),
 (r' \+ 1\b',' + 2','+ 1 became + 2'),(r'\bmax ','min ','maximum became minimum'),(r'\bmin ','max ','minimum became maximum'),
 (r' \+ (?=[a-zA-Z(])',' - ','sum became difference'),(r' - (?=[a-zA-Z(])',' + ','difference became sum'),(r' ∧ ',' ∨ ','and became or'),
 (r' ∨ ',' ∧ ','or became and'),(r' && ',' || ','and became or'),(r' \|\| ',' && ','or became and'),(r' = ',' ≠ ','equality negated'),
 (r' ≠ ',' = ','inequality negated'),(r' \* ',' + ','product became sum'),(r'\b0\b','1','0 became 1'),(r'\b1\b','0','1 became 0'),(r'\b1\b','2','1 became 2'),(r'\b2\b','3','2 became 3'),
 (r'\.head\b','.last','x'),(r'\btrue\b','false','true became false'),(r'\bfalse\b','true','false became true'),(r'\.exc\b','.ub','exception became undefined behaviour'),
 (r'Real\.sqrt ','id ','square root dropped'),(r'\bxs\b','ys','x'),(r'\bi \+ 1\b','i','neighbouring index')]
cands={}
for f in sorted(glob.glob('/verif/lean/Verif/Model/*.lean')):
    s=open(f).read()
    if os.path.basename(f) in('ElementTable.lean',): continue
    # strip comments to spaces of same length
    t=re.sub(r'/-.*?-/',lambda m:re.sub(r'[^\n]','\x00',m.group(0)),s,flags=re.S)
    t=re.sub(r'--[^\n]*',lambda m:'\x00'*len(m.group(0)),t)
    for m in re.finditer(r'^(?:@\[[^\]]*\]\s*)?(?:noncomputable |private )*def (\S+)(.*?)(?=^\S|\Z)',t,flags=re.S|re.M):
        name=m.group(1); base=m.start(2); body=m.group(2)
        k=body.find(':=')
        k2=body.find('\n  |')
        st=min([x for x in (k,k2) if x>=0],default=0)
        for rx,rep,why in rules:
            if why=='x': continue
            for h in re.finditer(rx,body[st:]):
                a=base+st+h.start(); b=base+st+h.end()
                if s[a-1:a+3]==' :=' or s[a:b+1].startswith(' :='): continue
                if rep==' ≠ ' and (s[max(0,a-40):a].rsplit('\n',1)[-1].strip().startswith('let')): continue
                cands.setdefault((f,name),[]).append((a,b,rep,why))
if len(sys.argv)>4:
    want={tuple(l.split()) for l in open(sys.argv[4])}
    cands={k:v for k,v in cands.items() if (os.path.basename(k[0]),k[1]) in want}
rnd=random.Random(seed)
keys=sorted(cands); rnd.shuffle(keys)
for k in keys: rnd.shuffle(cands[k])
L=[];r=0
while len(L)<n and any(len(cands[k])>r for k in keys):
    for k in keys:
        if len(cands[k])>r and len(L)<n:
            f,name=k; a,b,rep,why=cands[k][r]; s=open(f).read()
            ls=s.rfind('\n',0,a)+1; le=s.find('\n',b); 
            # enlarge context until unique
            lo,hi=ls,le
            while s.count(s[lo:hi])>1 and lo>0: lo=s.rfind('\n',0,lo-1)+1
            old=s[lo:hi]; new=s[lo:a]+rep+s[b:hi]
            L.append({'id':f'{os.path.basename(out)[:1].upper()}{seed}{len(L)+1:04d}','file':os.path.relpath(f,'/verif/lean'),'def':name,'old':old,'new':new,'claim':'automatic edit: '+why,'count':1})
    r+=1
json.dump(L,open(out,'w'),indent=1,ensure_ascii=False)
print(len(L),len(keys),sum(map(len,cands.values())))
