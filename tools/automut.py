#!/usr/bin/env python3
"""usage: automut.py SEED COUNT LOG [files...] -- random single-token edits of the model files in a scratch copy; the build is stopped a
little after its first error.  Edits that do not compile inside Verif/Model are not counted.  Survivors are to be looked at by hand:
equivalent edit, or a hole in the theorems."""
import json,sys,subprocess,shutil,os,re,random,time,signal
src=os.environ.get('SRC','/verif/lean'); dst=os.environ.get('SCRATCH','/tmp/sa')+'/lean'
seed,count,log=int(sys.argv[1]),int(sys.argv[2]),sys.argv[3]; files=sys.argv[4:]
rng=random.Random(seed)
os.makedirs(os.path.dirname(dst),exist_ok=True)
def sync(): subprocess.run(['cp','-a',src,dst],check=True) if not os.path.exists(dst) else None
sync()
mdir=dst+'/Verif/Model'
if not files: files=sorted(f for f in os.listdir(mdir) if f.endswith('.lean'))
OPS=[(r'(?<= )<(?= )','≤'),(r'(?<= )≤(?= )','<'),(r'(?<= )>(?= )','≥'),(r'(?<= )≥(?= )','>'),(r'(?<= )≠(?= )','='),(r'(?<=[^:] )=(?= [^>]*then)','≠'),
 (r' \+ 1(?![\dx])',''),(r' - 1(?![\dx])',''),(r' \+ 1(?![\dx])',' + 2'),(r'\btrue\b','false'),(r'\bfalse\b','true'),(r'(?<= )∧(?= )','∨'),(r'(?<= )∨(?= )','∧'),
 (r'(?<= )&&(?= )','||'),(r'(?<= )\|\|(?= )','&&'),(r'\bleft\b','right'),(r'\bright\b','left'),(r'\.Red\b','.Black'),(r'\.Black\b','.Red'),
 (r'(?<![\w.])\d+(?![\w.])',lambda m:str(int(m.group())+1)),(r'(?<![\w.])[1-9]\d*(?![\w.])',lambda m:str(int(m.group())-1)),
 (r'0x[0-9a-fA-F]+',lambda m:hex(int(m.group(),16)^1)),(r'\btake\b','drop'),(r'\bdrop\b','take'),(r'\.isSome\b','.isNone'),(r'\.isNone\b','.isSome'),(r'\bparent\b','down')]
def code_spans(s):
    # positions outside comments and doc comments
    mask=[True]*len(s)
    for m in re.finditer(r'/-.*?-/|--[^\n]*',s,re.S):
        for i in range(*m.span()): mask[i]=False
    return mask
cands=[]
for f in files:
    s=open(f'{mdir}/{f}').read(); mask=code_spans(s)
    for pat,rep in OPS:
        for m in re.finditer(pat,s):
            if not mask[m.start()]: continue
            ls=s.rfind('\n',0,m.start())+1; line=s[ls:s.find('\n',m.start())]
            if re.match(r'\s*(def|theorem|structure|inductive|instance|namespace|open|import|variable|termination_by|decreasing_by|abbrev|deriving|have|simp|omega)\b',line) and ':=' not in line[:m.start()-ls]: continue
            r=rep(m) if callable(rep) else rep
            cands.append((f,m.start(),m.end(),m.group(),r))
    # dropped statements
    for m in re.finditer(r'\n( +)((?:upd|set_\w+|write_\w+|put|St\.put|ensure|assertR|modify)\b[^\n]*)(?=\n\1\S)',s):
        if mask[m.start(2)]: cands.append((f,m.start(),m.end(),m.group(),''))
rng.shuffle(cands)
if os.environ.get('ONLY'):  # a JSON list of definitions (last part of the name): at most one edit each
    only=set(json.load(open(os.environ['ONLY']))); seen=set(); keep=[]
    for c in cands:
        t=open(f'{mdir}/{c[0]}').read()[:c[1]+1]
        d=re.findall(r'^\s*(?:@\[.*?\]\s*)?(?:private )?(?:theorem|def|example|instance|structure|inductive)\s*([^\s:({\[]*)',t,re.M)
        n=d[-1].split('.')[-1] if d else ''
        if n in only and n not in seen: seen.add(n); keep.append(c)
    cands=keep; print(len(cands),'candidates',file=sys.stderr)
def encl(path,line):
    ls=open(path).read().split('\n')
    for i in range(line-1,-1,-1):
        m=re.match(r'\s*(?:@\[.*?\]\s*)?(?:private )?(?:theorem|def|example|instance|structure|inductive)\s*([^\s:({\[]*)',ls[i])
        if m: return m.group(1) or 'example'
    return '?'
done=0
for f,a,b,old,new in cands:
    if done>=count: break
    p=f'{mdir}/{f}'; s=open(p).read(); t=s[:a]+new+s[b:]
    open(p,'w').write(t)
    line=s[:a].count('\n')+1
    r=subprocess.run(['lake','build','Verif.Model.'+f[:-5]],cwd=dst,capture_output=True,text=True)
    if r.returncode!=0: open(p,'w').write(s); continue
    pr=subprocess.Popen(['lake','build'],cwd=dst,stdout=subprocess.PIPE,stderr=subprocess.STDOUT,text=True,start_new_session=True)
    fails=[]; model_bad=False; t0=None; out=[]
    for l in pr.stdout:
        m=re.match(r'error: (Verif/[\w/]+\.lean):(\d+):',l)
        if m:
            if m.group(1).startswith('Verif/Model'): model_bad=True
            nm=f"{m.group(1)[6:-5].replace('/','.')}:{encl(dst+'/'+m.group(1),int(m.group(2)))}"
            if nm not in fails: fails.append(nm)
            t0=t0 or time.time()
        if t0 and (time.time()-t0>8 or len(fails)>=6):
            break
    try: os.killpg(pr.pid,signal.SIGTERM)
    except ProcessLookupError: pass
    pr.wait()
    subprocess.run(['pkill','-f',dst+'/Verif'])
    ln=s.split('\n'); 
    df='?'
    for i in range(line-1,-1,-1):
        m=re.match(r'\s*(?:@\[.*?\]\s*)?(?:private )?(?:theorem|def|example|instance|structure|inductive)\s*([^\s:({\[]*)',ln[i])
        if m: df=m.group(1); break
    open(p,'w').write(s)
    if model_bad: continue
    done+=1
    rec={'definition':f'{f[:-5]}: {df}','edit':f'line {line}: `{ln[line-1].strip()[:150]}`: `{old.strip()[:80]}` -> `{new}`' if new else f'line {line+1}: dropped `{old.strip()[:150]}`','claim_broken':'','failed':fails,'caught':bool(fails),'tightened':[]}
    print(json.dumps(rec,ensure_ascii=False),flush=True); open(log,'a').write(json.dumps(rec,ensure_ascii=False)+'\n')
