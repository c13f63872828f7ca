#!/usr/bin/env python3
"""Systematic mutation: for definitions of Model/*.lean that have no entry in seeded/LOG.jsonl, apply one generic edit and build until
the first failing declaration.  usage: automut.py OUT.jsonl [seed] [max]"""
import json,re,glob,os,sys,subprocess,random,time,signal
SRC='/verif/lean'; SC='/tmp/amut'; PRI='/tmp/amut_pristine'
out=sys.argv[1]; rnd=random.Random(int(sys.argv[2]) if len(sys.argv)>2 else 1); MAX=int(sys.argv[3]) if len(sys.argv)>3 else 1000
sh=lambda c: subprocess.run(c,shell=True,capture_output=True,text=True)
for d in (SC,PRI):
    sh(f'rm -rf {d}; cp -a {SRC} {d}')
log=[json.loads(l) for l in open('/verif/seeded/LOG.jsonl')]
if os.path.exists(out): log+=[json.loads(l) for l in open(out)]
seen=set()
for r in log:
    for t in re.split(r'[\s,/()]+',r['definition']): seen.add(t.split('.')[-1])
RULES=[(r' \+ 1\b',' + 2'),(r' - 1\b',' - 0'),(r' \+ ',' - '),(r' - ',' + '),(r' \* ',' + '),(r' ≤ ',' < '),(r' < ',' ≤ '),(r' > ',' ≥ '),(r' ≥ ',' > '),(r' = 0\b',' = 1'),(r' = 1\b',' = 0'),
 (r'\btrue\b','false'),(r'\bfalse\b','true'),(r' && ',' || '),(r' \|\| ',' && '),(r' ∧ ',' ∨ '),(r' ∨ ',' ∧ '),(r'\bmax\b','min'),(r'\bmin\b','max'),(r'\.1\b','.2'),(r'\.2\b','.1'),
 (r'\.take\b','.drop'),(r'\.drop\b','.take'),(r' 0\b',' 1'),(r' 1\b',' 0'),(r' 2\b',' 3'),(r' ++ (\S+)$',''),(r'\.reverse\b',''),(r'\bsome (\w+)','none'),(r' / 2',' / 3'),(r'-(\w)',r'\1'),(r' ≠ ',' = '),(r' == ',' != '),(r' != ',' == '),(r' % 2',' % 3'),(r'(\w+) (\w+)\)',r'\2 \1)')]
DEF=re.compile(r'^(?:@\[[^\]]*\]\s*)?(?:private |noncomputable |protected )*def\s+([^\s:({\[]+)')
def decl_at(path,line):
    name=None
    for i,l in enumerate(open(path,encoding='utf8'),1):
        if i>line: break
        m=re.match(r'\s*(?:@\[.*\]\s*)?(?:private |noncomputable |protected )*(theorem|lemma|def|example|instance)\s*([^\s:({\[]*)',l)
        if m: name=m.group(2) or m.group(1)
    return name
jobs=[]
for f in sorted(glob.glob(SRC+'/Verif/Model/*.lean')):
    L=open(f,encoding='utf8').read().split('\n')
    i=0
    while i<len(L):
        m=DEF.match(L[i])
        if m:
            j=i+1
            while j<len(L) and L[j].strip() and not re.match(r'^(/--|@\[|def|noncomputable|private|theorem|lemma|structure|inductive|end|namespace|section|variable|open)',L[j]): j+=1
            n=m.group(1)
            if n.split('.')[-1] not in seen: jobs.append((f,n,i,j))
            i=j
        else: i+=1
rnd.shuffle(jobs)
print(len(jobs),'jobs',flush=True)
def run(target,stop):
    p=subprocess.Popen(['lake','build']+target,cwd=SC,stdout=subprocess.PIPE,stderr=subprocess.STDOUT,text=True,preexec_fn=os.setsid)
    errs=[];t0=None
    for l in p.stdout:
        mm=re.match(r'^error: (Verif/[\w/]+\.lean):(\d+):\d+: (.*)$',l)
        if mm:
            d=decl_at(f'{SC}/{mm.group(1)}',int(mm.group(2))); e=f'{mm.group(1)[6:-5]}:{d}'
            if e not in errs: errs.append(e)
            if stop and len(errs)>=1:
                time.sleep(0.2)
                try: os.killpg(p.pid,signal.SIGKILL)
                except Exception: pass
                break
    p.wait()
    return p.returncode,errs
def reset(): sh(f'rm -rf {SC}/.lake/build; cp -a {PRI}/.lake/build {SC}/.lake/build; rm -rf {SC}/Verif; cp -a {PRI}/Verif {SC}/Verif')
done=0
for f,n,i,j in jobs:
    if done>=MAX: break
    rel=os.path.relpath(f,SRC); mod=rel[:-5].replace('/','.')
    L=open(f,encoding='utf8').read().split('\n')
    # body: after ':='
    txt='\n'.join(L[i:j]); k=txt.find(':='); 
    if k<0:
        k=txt.find('\n  |')
    if k<0: continue
    cands=[]
    for a,b in RULES:
        for m in re.finditer(a,txt[k:],re.M):
            new=txt[:k]+txt[k:][:m.start()]+m.expand(b)+txt[k:][m.end():]
            if new!=txt: cands.append((new,(a,b,m.start())))
    rnd.shuffle(cands)
    ok=False
    for new,_ in cands[:6]:
        open(f'{SC}/{rel}','w',encoding='utf8').write('\n'.join(L[:i])+'\n'+new+'\n'+'\n'.join(L[j:]))
        rc,e=run([mod],False)
        if rc==0: ok=True; break
    if not ok:
        open(f'{SC}/{rel}','w',encoding='utf8').write('\n'.join(L)); reset()
        print(n,'no compiling candidate',flush=True); continue
    t=time.time(); rc,errs=run([],True)
    a=txt.split('\n'); b=new.split('\n')
    df=[(x.strip(),y.strip()) for x,y in zip(a,b) if x!=y]
    rec={'definition':n,'file':rel,'edit':'; '.join(f'{x}  ~>  {y}' for x,y in df),'claim':'generic edit of '+n,'theorems_failed':errs,'theorems_tightened':[]}
    if rc==0: rec['survived']=True
    open(out,'a').write(json.dumps(rec,ensure_ascii=False)+'\n')
    print(n,'SURVIVED' if rc==0 else 'killed',errs[:2],int(time.time()-t),rec['edit'][:150] if rc==0 else '',flush=True)
    open(f'{SC}/{rel}','w',encoding='utf8').write('\n'.join(L))
    reset()
    done+=1
