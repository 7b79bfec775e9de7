import json
L=[json.loads(l) for l in open('/verif/seeded/LOG.jsonl')]
T={'aw5':['C03_rs1_function_rejects'],'p16':['C66_pcss1_low_rank_exact'],'sd1':['C41_sps1_start'],'sd2':['C41_sps1_start'],'sk11':['C47_srct_entries'],'df12':['C58_sps_default']}
for r in L:
    if r['outcome']=='survived' and r['id'] in T: r['theorems_tightened']=T[r['id']]
    if r['first_failures'] and all(f.startswith('Model/') for f in r['first_failures']): r['outcome']='ill-typed'
open('/verif/seeded/LOG.jsonl','w').write(''.join(json.dumps(r)+'\n' for r in L))
