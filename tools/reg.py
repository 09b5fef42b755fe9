#!/usr/bin/env python3
"""reg.py: read JSON on stdin {prop:{...}, design:"...", theorems:[...], status, note, after_module, modules:[...], finding?}"""
import json,sys,re
d=json.load(open(sys.argv[1]))
o=d['prop']; pid=o['id']
s=open('/verif/properties.jsonl').read()
assert '"%s"'%pid not in s
open('/verif/properties.jsonl','a').write(json.dumps(o)+"\n")
L=open('/verif/DESIGN.md').read().split('\n')
i=max(k for k,l in enumerate(L) if re.match(r'\| C\d+ \|',l))
L.insert(i+1,"| %s | %s | %s |"%(pid,o['title'],d['design']))
for f in d.get('findings',[]):
    ks=[k for k,l in enumerate(L) if re.match(r'(\d+)\. ',l)]
    i=ks[-1]; n=int(L[i].split('.')[0])+1
    j=i+1
    while j<len(L) and L[j].startswith('    '): j+=1
    L.insert(j,"%d. %s"%(n,f))
open('/verif/DESIGN.md','w').write('\n'.join(L))
p='/verif/tools/manifest.py'
s=open(p).read(); assert s.count('json.dump(')==1
s=s.replace('json.dump(','c(%s,%s,%s,%s)\njson.dump('%tuple(json.dumps(x) for x in (pid,d.get('status','proved'),d['theorems'],d.get('note',''))))
open(p,'w').write(s)
s=open('/verif/lean/Verif.lean').read()
for m in d['modules']:
    if 'import '+m+'\n' not in s: s=s.rstrip('\n')+'\nimport '+m+'\n'
open('/verif/lean/Verif.lean','w').write(s)
