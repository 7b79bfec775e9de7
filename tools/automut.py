#!/usr/bin/env python3
"""Generate single-edit mutants of every definition in Verif/Model (operator swaps, constants, negated
conditions, dropped checks).  usage: automut.py > mutants.json   (run with mutate.py)"""
import json,re,glob,os,sys
OPS=[(r'≤','<'),(r'(?<![<←])<(?![|<])','≤'),(r'≥','>'),(r'(?<![=|])>(?![>])','≥'),(r' \+ 1\b',' + 2'),(r' - 1\b',' - 2'),
 (r' \+ ',' - '),(r' - ',' + '),(r'\bmin\b','max'),(r'\bmax\b','min'),(r'\btrue\b','false'),(r'\bfalse\b','true'),
 (r'(?<![\w.])0(?![\w.])','1'),(r'(?<![\w.])1(?![\w.])','2'),(r'(?<![\w.])2(?![\w.])','3'),(r'(?<![\w.])10(?![\w.])','11'),
 (r'ᵀ',''),(r'⁻¹',''),(r'√',''),(r'\bfro\b','froSq'),(r'∧','∨'),(r'∨','∧'),(r' = ',' ≠ '),(r' ≠ ',' = '),
 (r'\bif (h : )?(.+?) then',r'if \g<1>¬ (\g<2>) then'),(r'\.assertion\b','.value'),(r'\.value\b','.assertion'),(r'\.runtime\b','.value'),
 (r'\.linalg\b','.value'),(r'\.1\b','.2'),(r'\.2\b','.1'),(r'\*','+'),(r' / ',' * '),(r'\.transpose\b',''),(r'\bnone\b','(some 0)'),
 (r'\.qr\b','.svd'),(r'\|([^|]+)\|',r'\1'),(r'-(?=\w)',''),(r'\^ 2',''),(r'%','/'),(r'\.map\b','.filterMap some <|'),(r'\+\+','++ [] ++ id')]
OPS=OPS[:-2]
DECL=re.compile(r'(?:@\[[^\]]*\]\s*)?(?:private |protected |noncomputable |partial )*(theorem|lemma|def|instance|structure|abbrev|example|inductive|class)\b\s*([^\s:({\[]*)')
out=[]
for p in sorted(glob.glob('/verif/lean/Verif/Model/*.lean')):
    s=open(p).read(); f='Model/'+os.path.basename(p); b=f[6:-5]
    # mask comments
    mask=re.sub(r'/-.*?-/|--[^\n]*',lambda m:re.sub(r'[^\n]',' ',m.group(0)),s,flags=re.S)
    lines=mask.split('\n'); src=s.split('\n')
    cur=None; kind=None; body=False; n=0
    for i,l in enumerate(lines):
        m=DECL.match(l)
        if m: kind,cur=m.group(1),m.group(2); body=False
        if kind in('structure','inductive','class','theorem','lemma') or cur is None: continue
        start=0
        if not body:
            j=l.find(':=')
            if j>=0 and (l.rstrip().endswith(':=') or l.rstrip().endswith('do') or j>0 ): body=True; start=j+2
            elif re.match(r'\s*\|',l): body=True
            else: continue
        # drop assertion line
        if re.match(r'\s*(Py\.assert|assert)',l):
            out.append(dict(id='%s_%d_drop'%(b,i+1),file=f,line=i+1,col=0,end=len(src[i]),new='',**{'def':cur},claim='auto: dropped check'))
        for k,(pat,rep) in enumerate(OPS):
            for mm in re.finditer(pat,l):
                if mm.start()<start: continue
                if l[mm.start()-1:mm.end()+1] in(':=',) : continue
                if pat in(' = ',) and ':=' in l[mm.start()-1:mm.end()+1]: continue
                if pat.startswith('(?<![=|])>') and l[mm.start()-1:mm.start()] in('=','-'): continue
                if pat==r'\.1\b' or pat==r'\.2\b':
                    pass
                new=mm.expand(rep)
                if new==mm.group(0): continue
                out.append(dict(id='%s_%d_%d_%d'%(b,i+1,mm.start(),k),file=f,line=i+1,col=mm.start(),end=mm.end(),new=new,**{'def':cur},
                   claim='auto'))
        if l.strip()=='' : pass
json.dump(out,sys.stdout,indent=0,ensure_ascii=False)
