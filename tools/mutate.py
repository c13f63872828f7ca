#!/usr/bin/env python3
"""Mutation runner: applies one edit at a time to a scratch copy of lean/ and records which declarations
stop compiling.  usage: mutate.py MUTATIONS.json OUT.jsonl   (MUTATIONS: [{file, old, new, definition, claim}])"""
import json,subprocess,sys,os,re,shutil
SRC='/verif/lean'; SC=os.environ.get('SCRATCH','/tmp/scratch')
if not os.path.exists(SC): subprocess.run(['cp','-r',SRC,SC],check=True)
else:
    subprocess.run(f'rsync -a --delete --exclude .lake {SRC}/ {SC}/ 2>/dev/null || (rm -rf {SC}/Verif && cp -r {SRC}/Verif {SRC}/Verif.lean {SC}/)',shell=True)
def decl_at(path,line):
    name=None
    for i,l in enumerate(open(path,encoding='utf8'),1):
        if i>line: break
        m=re.match(r'\s*(?:@\[.*\]\s*)?(?:private |noncomputable |protected )*(theorem|lemma|def|example|instance)\s*([^\s:({\[]*)',l)
        if m: name=m.group(2) or m.group(1)
    return name
muts=json.load(open(sys.argv[1])); out=open(sys.argv[2],'a')
subprocess.run(['lake','build'],cwd=SC,capture_output=True)
for m in muts:
    p=f'{SC}/Verif/{m["file"]}'; s=open(p,encoding='utf8').read()
    if s.count(m['old'])<1:
        print('NOT FOUND',m['definition'],m['old']); continue
    if s.count(m['old'])>1 and not m.get('first'):
        print('AMBIGUOUS',m['definition'],s.count(m['old'])); 
    open(p,'w',encoding='utf8').write(s.replace(m['old'],m['new'],1))
    r=subprocess.run(['lake','build']+([m['target']] if 'target' in m else []),cwd=SC,capture_output=True,text=True)
    o=r.stdout+r.stderr
    errs=[]
    for mm in re.finditer(r'^error: (Verif/[\w/]+\.lean):(\d+):\d+: (.*)$',o,re.M):
        d=decl_at(f'{SC}/{mm.group(1)}',int(mm.group(2)))
        e=f'{mm.group(1)[6:-5]}:{d}'
        if e not in errs: errs.append(e)
    open(p,'w',encoding='utf8').write(s)
    rec={'definition':m['definition'],'edit':m['old'].strip()+'  ~>  '+m['new'].strip(),'claim':m['claim'],'theorems_failed':errs,'theorems_tightened':[]}
    if r.returncode==0: rec['survived']=True
    out.write(json.dumps(rec,ensure_ascii=False)+'\n'); out.flush()
    print(m['definition'],'SURVIVED' if r.returncode==0 else 'killed',errs[:4],flush=True)
