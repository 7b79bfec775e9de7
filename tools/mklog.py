#!/usr/bin/env python3
"""Write seeded/LOG.jsonl from the raw records of mutate.py (/tmp/mut_out.jsonl) and the list of constants each
property theorem depends on (/tmp/deps/deps.txt).  `theorems_failed` lists the property theorems whose own proof
fails or rests on a lemma whose proof fails; `first_failures` the declarations the build stops at."""
import json,os,re
deps={}
for l in open('/tmp/deps/deps.txt'):
    w=l.split(); deps[w[0]]=set(x.split('.')[-1] for x in w[1:])|set('.'.join(x.split('.')[-2:]) for x in w[1:])
LOG='/verif/seeded/LOG.jsonl'
recs={}
for src in (LOG,'/tmp/mut_out.jsonl'):
    if os.path.exists(src):
        for l in open(src):
            if l.strip():
                r=json.loads(l); key=(r['id'],r.get('attempt',1) if src==LOG else None)
                if src==LOG: recs[r['id']]=recs.get(r['id'],[])+[r]
                else:
                    ff=r['theorems_failed']; names={f.split(':')[1] for f in ff}
                    r['first_failures']=ff
                    r['theorems_failed']=sorted(t for t,d in deps.items() if t in names or d&names)
                    old=recs.get(r['id'],[])
                    if not any(o['first_failures']==ff and o['outcome']==r['outcome'] and o['edit']==r['edit'] for o in old):
                        recs[r['id']]=old+[r]
with open(LOG,'w') as f:
    for i in recs:
        for r in recs[i]: f.write(json.dumps(r)+'\n')
