#!/usr/bin/env python3
"""Generate generic mutants of the model definitions. Usage: automut.py SEED N > MUTANTS.py
Operators: comparison and boolean operators, branches, results, literals, list operations."""
import re, os, random, sys
D='/verif/lean/Verif/Model'
OPS=[(r' < ',' ≤ '),(r' ≤ ',' < '),(r' ∧ ',' ∨ '),(r' ∨ ',' ∧ '),(r' && ',' || '),(r' \|\| ',' && '),
 (r' = (?=[^>\n]* then)',' ≠ '),(r' ≠ ',' = '),(r'\.ok \(\)','.error .panic'),(r'\btrue\b','false'),(r'\bfalse\b','true'),
 (r' \+ 1\b',''),(r' - 1\b',''),(r' \+ ',' - '),(r'\.take ','.drop '),(r'\.drop ','.take '),(r'\.isEmpty','.isEmpty.not'),
 (r'\.reverse',''),(r'\.dropLast','.tail'),(r'\.head\?','.getLast?'),(r'\.getLast\?','.head?'),
 (r'\bif (.+?) then','if ¬ (\\1) then'),(r'\b0\b','1'),(r'\b1\b','2'),(r'\.filter ','.dropWhile '),
 (r'some \((\w+)\)','none'),(r'\bmax\b','min'),(r'\bmin\b','max'),(r' % ',' / '),
 (r'\(s, ','(s0, '),(r'\.warn\b','.skip'),(r'\.skip\b','.overwrite'),(r'\.newer\b','.overwrite'),
 (r'\.dir\b','.link'),(r'\.link\b','.file'),(r'\.file\b','.link'),(r'\.lt\b','.gt'),(r'\.gt\b','.lt'),
 (r'\.error (\w+)\b','.ok ()'),(r' :: ',' :: [] ++ ')]
random.seed(int(sys.argv[1])); N=int(sys.argv[2])
cand=[]
ONLY=sys.argv[3].split(',') if len(sys.argv)>3 else None
for fn in sorted(os.listdir(D)):
    if ONLY and fn[:-5] not in ONLY: continue
    src=open(os.path.join(D,fn)).read()
    # blank out comments
    clean=re.sub(r'/-.*?-/',lambda m:re.sub(r'[^\n]',' ',m.group(0)),src,flags=re.S)
    clean=re.sub(r'--[^\n]*',lambda m:' '*len(m.group(0)),clean)
    pos=0; defn=None; inind=False
    for line in clean.split('\n'):
        m=re.match(r'(def|structure|inductive|abbrev|instance|theorem|example)\s+(\S+)',line)
        if m: defn=m.group(2); kind=m.group(1)
        if defn and kind=='def' and not line.startswith('def') or (m and m.group(1)=='def' and ':=' in line):
            off=0
            if m: off=line.index(':=')+2 if ':=' in line else len(line)
            for pat,rep in OPS:
                for x in re.finditer(pat,line):
                    if x.start()<off: continue
                    new=line[:x.start()]+x.expand(rep)+line[x.end():]
                    if new!=line: cand.append((fn,defn,line,new,pos))
        pos+=len(line)+1
random.shuffle(cand)
out=[]
for fn,defn,line,new,pos in cand[:N]:
    src=open(os.path.join(D,fn)).read()
    realline=src[pos:src.index('\n',pos)]
    # context: whole line + previous line for uniqueness
    occ=src[:pos].count(realline)
    newreal=new+realline[len(line):] if realline.startswith(line) else new
    out.append(('Model/'+fn,defn,realline,newreal,'(generic mutation) behaviour of '+defn,src.count(realline,0,pos+len(realline))-1))
print('M='+repr(out))
