#!/usr/bin/env python3
"""Seeded-bug testing of the theorems.  Usage: seed.py MUTANTS.py  (run outside /verif's build tree).
MUTANTS.py defines M = [(file, definition, old, new, claim broken, [occurrence, [theorems tightened since the last run]]), ...].
For each mutant: copy the model in a scratch project, edit, build, and append one JSON line to
/verif/seeded/LOG.jsonl."""
import json, os, re, shutil, subprocess, sys, runpy, time
SRC='/verif/lean'; W='/tmp/mutw/lean'; LOG='/verif/seeded/LOG.jsonl'
def sync():
    os.makedirs(os.path.dirname(W), exist_ok=True)
    shutil.rmtree(W,ignore_errors=True); subprocess.run(['cp','-a',SRC,W],check=True)
def enclosing(path, line):
    name=None
    with open(path) as f:
        for i,l in enumerate(f,1):
            m=re.match(r'\s*(?:@\[[^\]]*\]\s*)?(?:private |protected |noncomputable )*(theorem|lemma|def|instance|example|structure|inductive)\s*(\S*)',l)
            if m: 
                name=(m.group(2) if m.group(1)!='example' else 'example@%d'%i)
            if i>=line: break
    return name
def strip_example(path, line):
    """remove the example that starts on `line` (up to the next top-level command)"""
    L=open(path).read().split('\n'); j=line
    while j<len(L) and not re.match(r'(theorem|def|/--|/-!|end|example|structure|inductive|namespace|section|instance|abbrev|open|variable|@\[)',L[j]): j+=1
    for k in range(line-1,j): L[k]=''
    # a doc comment right before it must go as well
    k=line-2
    while k>=0 and L[k].strip()=='': k-=1
    if k>=0 and L[k].rstrip().endswith('-/'):
        e=k
        while k>=0 and '/-' not in L[k]: k-=1
        if L[k].startswith('/--'):
            for t in range(k,e+1): L[t]=''
    open(path,'w').write('\n'.join(L))
def build():
    r=subprocess.run('lake build 2>&1',shell=True,cwd=W,capture_output=True,text=True)
    fails=[]; ex=[]
    for l in r.stdout.splitlines():
        x=re.match(r'error: (?:\./)?(Verif/\S+\.lean):(\d+):\d+',l)
        if x:
            q=os.path.join(W,x.group(1)); n=enclosing(q,int(x.group(2)))
            if n.startswith('example@') and (q,int(n[8:])) not in ex: ex.append((q,int(n[8:])))
            n='%s (%s)'%(n,x.group(1)[6:-5])
            if n not in fails: fails.append(n)
    if r.returncode and not fails:   # the checker of a module died (e.g. out of memory in a kernel reduction)
        fails=['(checking of %s died)'%x for x in re.findall(r'^- (Verif\.\S+)$',r.stdout,re.M)]
        open('/tmp/mutw/last_died.txt','w').write(r.stdout)
    return r.returncode,fails,ex
def main():
    muts=runpy.run_path(sys.argv[1])['M']
    done=set()
    if os.path.exists(LOG):
        for l in open(LOG):
            j=json.loads(l); done.add((j['file'],j['edit']))
    sync()
    for m in muts:
        file,defn,old,new,claim=m[:5]; occ=m[5] if len(m)>5 else 0
        edit='replace `%s` by `%s`%s'%(old.strip(),new.strip(),'' if not occ else ' (occurrence %d)'%(occ+1))
        tight=m[6] if len(m)>6 else []      # a re-run after these theorems were tightened
        if (file,edit) in done and len(m)<=6: continue
        p=os.path.join(W,'Verif',file); orig=open(p).read()
        idx=-1
        for _ in range(occ+1): idx=orig.find(old,idx+1)
        if idx<0: print('NOMATCH',file,old); continue
        if len(m)<=5 and orig.count(old)>1: print('AMBIG',file,old,orig.count(old))
        open(p,'w').write(orig[:idx]+new+orig[idx+len(old):])
        t=time.time()
        saved={}; allf=[]
        for _ in range(8):
            rc,fails,ex=build()
            allf+=[x for x in fails if x not in allf]
            # if nothing but examples failed: remove them and see whether a theorem fails
            if rc and fails and len(ex)==len(fails):
                for q,l in sorted(ex,reverse=True):
                    saved.setdefault(q,open(q).read()); strip_example(q,l)
                continue
            break
        status='KILLED' if rc else ('EXAMPLES' if allf else 'SURVIVED'); fails=allf
        for q in saved: open(q,'w').write(saved[q])
        if claim.startswith('(generic') and any(x.endswith('(%s)'%file[:-5]) for x in fails):
            print('INVALID',file,defn,edit[:80],flush=True); open(p,'w').write(orig); continue   # the edited definition does not compile
        print(status,file,defn,edit[:80],'->',fails[:6],'%.0fs'%(time.time()-t),flush=True)
        if rc and not fails: print('BUILD FAILED WITHOUT AN ERROR IN A THEOREM',flush=True); open(p,'w').write(orig); continue
        rec={'definition':defn,'file':file,'edit':edit,'claim_broken':claim,'theorems_failed':fails,'theorems_tightened':tight if rc else [],'result':status.lower()}
        if len(m)>6: rec['rerun']=True
        with open(LOG,'a') as f: f.write(json.dumps(rec)+'\n')
        open(p,'w').write(orig)
main()
