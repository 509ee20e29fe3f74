#!/usr/bin/env python3
"""Seeded-bug runner.  usage: mutate.py MUTANTS.json [ids...]
Each mutant: {id, file, def, old, new, claim, props?}.  Copies a snapshot of /verif/lean (/tmp/mbase) to a scratch directory, applies the edit, runs
`lake build`, and appends to /verif/seeded/LOG.jsonl the theorems in which errors were reported."""
import json, subprocess, sys, os, re, shutil
W=os.environ.get('MUTW','')  # worker number: several runners can share one list, MUTN of them
N=int(os.environ.get('MUTN','1'))
SCR='/tmp/scratch'+W
BOUT='/tmp/mut_build'+W+'.out'
LOG='/verif/seeded/LOG.jsonl'
def sync():
    shutil.rmtree(SCR, ignore_errors=True)
    subprocess.run(['cp','-a','/tmp/mbase',SCR],check=True)
def theorem_at(path,line):
    name=None
    for i,l in enumerate(open(path),1):
        m=re.match(r'\s*(?:open Classical in\s+)?(?:@\[[^\]]*\]\s*)?(?:private |protected |noncomputable )*(theorem|lemma|def|example|instance|structure|abbrev)\b\s*([^\s:({\[]*)',l)
        if m and i<=line: name=(m.group(2) or m.group(1)) 
        if i>line: break
    return name
def run(m):
    sync()
    p=os.path.join(SCR,m['file'])
    s=open(p).read()
    n=s.count(m['old'])
    if n!=m.get('count',1):
        print(m['id'],'PATTERN COUNT',n); return
    s=s.replace(m['old'],m['new']); open(p,'w').write(s)
    # once an error has been reported the build gets 60 more seconds
    import time
    lf=open(BOUT,'w+'); pr=subprocess.Popen(['lake','build'],cwd=SCR,stdout=lf,stderr=subprocess.STDOUT,start_new_session=True)
    t0=time.time(); tf=None
    while pr.poll() is None:
        time.sleep(1)
        if tf is None and 'error: Verif/' in open(BOUT).read(): tf=time.time()
        if (tf and time.time()-tf>12) or time.time()-t0>2400:
            os.killpg(pr.pid,15); pr.wait(); break
    out=open(BOUT).read()
    class r: returncode=pr.returncode
    failed=[]
    for f,l in re.findall(r'error: (Verif/\S+?\.lean):(\d+):\d+',out):
        t=theorem_at(os.path.join(SCR,f),int(l))
        if t and (f,t) not in failed: failed.append((f,t))
    ok=r.returncode==0
    modelfail=[x for x in failed if x[0]==m['file']]
    names=[]
    for f,t in failed:
        if t not in names: names.append(t)
    rec={'id':m['id'],'definition':m['def'],'file':m['file'],'edit':f"{m['old'].strip()}  ==>  {m['new'].strip()}",'breaks':m['claim'],
         'outcome':'SURVIVED' if ok else ('edit does not compile' if modelfail else 'caught'),'failed':names,'tightened':m.get('tightened',[])}
    with open('/tmp/mut_results.jsonl','a') as g: g.write(json.dumps(rec)+'\n')
    print(rec['id'],rec['outcome'],names[:8],flush=True)
    return rec
if __name__=='__main__':
    ms=json.load(open(sys.argv[1]))
    sel=set(sys.argv[2:])
    done=set()
    if os.path.exists('/tmp/mut_results.jsonl') and not sel:
        done={json.loads(l)['id'] for l in open('/tmp/mut_results.jsonl')}
    for i,m in enumerate(ms):
        if N>1 and i%N!=int(W): continue
        if sel and m['id'] not in sel: continue
        if m['id'] in done: continue
        run(m)
