#!/usr/bin/env python3
"""Run the mutants of automut.py in a scratch copy: elaborate the edited module, then build until the first
failing module.  usage: automutrun.py mutants.json out.jsonl"""
import json,os,re,shutil,subprocess,sys,time,signal
SRC='/verif/lean'; DST='/tmp/scratch2/lean'
def decl_at(path,line):
    ls=open(path).read().split('\n')
    for i in range(min(line,len(ls))-1,-1,-1):
        m=re.match(r'(?:@\[[^\]]*\]\s*)?(?:private |protected |noncomputable )*(theorem|lemma|def|instance|structure|abbrev|example)\b\s*([^\s:({\[]*)',ls[i])
        if m: return (m.group(2) or 'example') if m.group(1)!='example' else 'example@%d'%(i+1)
    return '?'
def build(target):
    p=subprocess.Popen(['lake','build']+target,cwd=DST,stdout=subprocess.PIPE,stderr=subprocess.STDOUT,text=True,start_new_session=True)
    fails=[]; seen=False
    for l in p.stdout:
        m=re.match(r'error: (Verif/[\w/]+\.lean):(\d+):',l)
        if m:
            k=m.group(1)[6:-5]+':'+decl_at(os.path.join(DST,m.group(1)),int(m.group(2)))
            if k not in fails: fails.append(k)
        if 'Lean exited with code' in l and fails: seen=True; break
    if seen:
        try: os.killpg(p.pid,signal.SIGKILL)
        except ProcessLookupError: pass
    rc=p.wait()
    return (rc if not seen else 1),fails
mus=json.load(open(sys.argv[1])); OUT=sys.argv[2]
done=set()
if os.path.exists(OUT): done={json.loads(l)['id'] for l in open(OUT)}
if not os.path.exists(DST) or '--sync' in sys.argv:
    shutil.rmtree(DST,ignore_errors=True); shutil.copytree(SRC,DST,symlinks=True)
for mu in mus:
    if mu['id'] in done: continue
    p=os.path.join(DST,'Verif',mu['file']); orig=open(p).read()
    ls=orig.split('\n'); l=ls[mu['line']-1]; old=l[mu['col']:mu['end']]
    ls[mu['line']-1]=l[:mu['col']]+mu['new']+l[mu['end']:]
    open(p,'w').write('\n'.join(ls)); t=time.time()
    rc,f=build(['Verif.Model.'+mu['file'][6:-5]])
    if rc: st='invalid'
    else:
        rc,f=build([]); st='survived' if rc==0 else 'killed'
    open(p,'w').write(orig)
    rec=dict(id=mu['id'],definition=mu['def'],file=mu['file'],line=mu['line'],before=l.strip(),after=ls[mu['line']-1].strip(),status=st,failed=f,secs=round(time.time()-t))
    open(OUT,'a').write(json.dumps(rec,ensure_ascii=False)+'\n')
