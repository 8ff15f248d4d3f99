#!/usr/bin/env python3
"""usage: mutate.py FILE.json [outlog]  -- each entry {file, old, new, def, edit, claim}; edits a scratch copy of /verif/lean,
rebuilds, and appends one line per entry with the theorems that no longer compile.  Runs with `lake build` (all errors
collected per module; property theorems in modules that import a broken module are listed as `blocked modules`)."""
import json,sys,subprocess,shutil,os,re
src=os.environ.get('SRC','/verif/lean'); dst=os.environ.get('SCRATCH','/tmp/scratch')+'/lean'
entries=json.load(open(sys.argv[1])); log=sys.argv[2] if len(sys.argv)>2 else '/verif/seeded/LOG.jsonl'
os.makedirs(os.path.dirname(dst),exist_ok=True)
subprocess.run(['rsync','-a','--delete',src+'/',dst+'/'],check=True) if shutil.which('rsync') else (shutil.rmtree(dst,ignore_errors=True),shutil.copytree(src,dst,symlinks=True))
def encl(path,line):
    ls=open(path).read().split('\n'); ns=[]
    for i in range(line-1,-1,-1):
        m=re.match(r'\s*(?:@\[.*?\]\s*)?(?:private )?(?:theorem|def|example|instance|structure|inductive)\s*([^\s:({\[]*)',ls[i])
        if m: return m.group(1) or 'example'
    return '?'
for e in entries:
    p=f"{dst}/Verif/{e['file']}"; s=open(p).read()
    if s.count(e['old'])<1: print('NOT FOUND',e['old'][:60]); continue
    n=e.get('nth',0); parts=s.split(e['old'])
    if len(parts)>2 and 'nth' not in e: print('AMBIGUOUS',len(parts)-1,e['old'][:60]); continue
    t=e['old'].join(parts[:n+1])+e['new']+e['old'].join(parts[n+1:])
    open(p,'w').write(t)
    r=subprocess.run(['lake','build'],cwd=dst,capture_output=True,text=True); out=r.stdout+r.stderr
    fails=[]
    for m in re.finditer(r'error: (Verif/[\w/]+\.lean):(\d+):',out):
        f,l=m.group(1),int(m.group(2)); nm=f"{f[6:-5].replace('/','.')}:{encl(dst+'/'+f,l)}"
        if nm not in fails: fails.append(nm)
    # second round: props that directly break: elaborate Props modules is blocked, so report them
    ref=None
    if 'probe' in e:
        shutil.copy(f"/verif/tools/probes/{e['probe']}.txt",f"{dst}/Probe.lean")
        q=subprocess.run(['lake','env','lean','Probe.lean'],cwd=dst,capture_output=True,text=True,timeout=600)
        ref=([l for l in q.stdout.split('\n') if l.startswith('[')] or [q.stdout.strip()])[-1][:300]
    rec={'definition':e['def'],'edit':e['edit'],'claim_broken':e['claim'],'failed':fails,'caught':r.returncode!=0,'tightened':e.get('tightened',[])}
    if ref is not None: rec['statements_refuted_on_samples']=ref
    print(json.dumps(rec)); 
    open(log,'a').write(json.dumps(rec)+'\n')
    open(p,'w').write(s)
