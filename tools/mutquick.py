#!/usr/bin/env python3
"""Apply seeded bugs to the model in a scratch copy, rebuild, and record which declarations fail.
usage: mutate.py mutants.json [ids...]   (appends to /tmp/mut_out.jsonl; each build is cut off 90 s after its first failing module)"""
import json, os, re, shutil, subprocess, sys, time, signal, threading
SRC=os.environ.get('MUT_SRC','/verif/lean'); DST='/tmp/scratch3/lean'; LOG='/verif/seeded/LOG.jsonl'
def sync():
    os.makedirs(DST, exist_ok=True)
    subprocess.run(['rsync','-a','--delete',SRC+'/',DST+'/'],check=True) if shutil.which('rsync') else \
        (shutil.rmtree(DST,ignore_errors=True), shutil.copytree(SRC,DST,symlinks=True))
def decl_at(path,line):
    ls=open(path).read().split('\n')
    for i in range(min(line,len(ls))-1,-1,-1):
        m=re.match(r'(?:@\[[^\]]*\]\s*)?(?:private |protected |noncomputable )*(theorem|lemma|def|instance|structure|abbrev|example)\b\s*([^\s:({\[]*)',ls[i])
        if m: return (m.group(2) or 'example') if m.group(1)!='example' else 'example@%d'%(i+1)
    return '?'
def run(mu):
    p=os.path.join(DST,'Verif',mu['file']); orig=open(p).read()
    if orig.count(mu['old'])<1: return dict(status='BAD: pattern not found')
    n=mu.get('nth',0)
    parts=orig.split(mu['old'])
    new=mu['old'].join(parts[:n+1])+mu['new']+mu['old'].join(parts[n+1:])
    open(p,'w').write(new)
    t=time.time()
    pr=subprocess.Popen(['lake','build'],cwd=DST,stdout=subprocess.PIPE,stderr=subprocess.STDOUT,text=True,start_new_session=True)
    buf=[]; stop=None; killed=False
    def kill():
        try: os.killpg(pr.pid,signal.SIGKILL)
        except ProcessLookupError: pass
    timer=None
    for l in pr.stdout:
        buf.append(l)
        if timer is None and 'Lean exited with code' in l:
            timer=threading.Timer(90,kill); timer.start()
    rc=pr.wait()
    if timer: timer.cancel()
    out=''.join(buf)
    fails=[]
    for m in re.finditer(r'^error: (Verif/[\w/]+\.lean):(\d+):',out,re.M):
        f=os.path.join(DST,m.group(1)); d=decl_at(f,int(m.group(2)))
        k=m.group(1)[6:-5]+':'+d
        if k not in fails: fails.append(k)
    open(p,'w').write(orig)
    return dict(status='survived' if rc==0 else 'killed',failed=fails,secs=round(time.time()-t))
def main():
    mus=json.load(open(sys.argv[1])); ids=set(sys.argv[2:])
    sync()
    for mu in mus:
        if ids and mu['id'] not in ids: continue
        res=run(mu)
        rec=dict(id=mu['id'],definition=mu['def'],file=mu['file'],edit=mu['old'].strip()+'  ==>  '+mu['new'].strip(),
                 claim_broken=mu['claim'],outcome=res['status'],theorems_failed=res.get('failed',[]),theorems_tightened=mu.get('tightened',[]))
        print(json.dumps(dict(id=mu['id'],**res)),flush=True)
        if not res['status'].startswith('BAD'):
            open('/tmp/mut_out.jsonl','a').write(json.dumps(rec)+'\n')
main()
