#!/usr/bin/env python3
"""usage: mut.py file.json ; list of {def,file,old,new,claim,(count)}"""
import json,sys,subprocess,re,os,time
muts=json.load(open(sys.argv[1]))
S='/tmp/mut/lean'
subprocess.run('rm -rf '+S+' && mkdir -p /tmp/mut && cp -a /verif/lean '+S,shell=True,check=True)
log='/verif/seeded/LOG.jsonl'
def encl(path,line):
    L=open(path).read().split('\n')
    for i in range(min(line,len(L))-1,-1,-1):
        m=re.match(r'\s*(?:@\[[^\]]*\]\s*)?(?:private |protected |noncomputable )*(theorem|lemma|def|abbrev|instance|example)\b\s*([^\s:({\[]*)',L[i])
        if m:
            return (m.group(2) or m.group(1)) if m.group(1)!='example' else 'example@%s:%d'%(os.path.basename(path),i+1)
    return '?'
for mu in muts:
    f=os.path.join(S,mu['file']); src=open(f).read()
    assert src.count(mu['old'])>=1,(mu['def'],mu['old'])
    n=mu.get('count',1)
    open(f,'w').write(src.replace(mu['old'],mu['new'],n))
    t=time.time()
    out=subprocess.run(['lake','build'],cwd=S,capture_output=True,text=True)
    o=out.stdout+out.stderr
    fails=[]
    for m in re.finditer(r'error: (\S+\.lean):(\d+):\d+',o):
        nm=encl(os.path.join(S,m.group(1)),int(m.group(2)))
        if nm not in fails: fails.append(nm)
    mods=sorted(set(re.findall(r'^- (Verif\S*)',o,re.M)))
    open(f,'w').write(src)
    rec={"definition":mu['def'],"edit":mu['old'].strip()+"  ==>  "+mu['new'].strip(),"claim_broken":mu['claim'],"theorems_failed":fails,"modules_not_built":mods,"theorems_tightened":mu.get('tight',[])}
    print(json.dumps(rec),'%.0fs'%(time.time()-t))
    if out.returncode==0: print('   !!!!! SURVIVED'); 
    if '--log' in sys.argv:
        if out.returncode==0 and not mu.get('note'): rec['note']='survived: see next entries'
        if mu.get('note'): rec['note']=mu['note']
        open(log,'a').write(json.dumps(rec)+'\n')
