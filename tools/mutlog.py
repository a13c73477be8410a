#!/usr/bin/env python3
"""Turn the results of the mutation runs into seeded/LOG.jsonl (usage: mutlog.py results.jsonl)."""
import json,re,sys,os
base=os.path.dirname(os.path.dirname(os.path.abspath(__file__)))
def props(mod):
    p=f"{base}/lean/Verif/Props/{mod}.lean"
    return re.findall(r'^theorem (C\d\d_\w+)',open(p).read(),re.M) if os.path.exists(p) else []
TIGHT=json.load(open(f"{base}/tools/tightened.json"))
out=[]
for l in open(sys.argv[1]):
    r=json.loads(l)
    direct=[f"{n} ({os.path.basename(f)})" for f,ns in r['errors'].items() for n in ns if n]
    rec={"definition":r['definition'],"edit":r['edit'],"claim":r['claim'],
         "failed":direct,"theorems_depending_on_them":sorted({t for m in r['blocked'] for t in props(m)}),
         "survived":r['rc']==0,"tightened":[]}
    k=str(r['idx'])
    if k in TIGHT:
        rec.update(TIGHT[k])
    out.append(rec)
open(f"{base}/seeded/LOG.jsonl",'w').write(''.join(json.dumps(x,ensure_ascii=False)+'\n' for x in out))
print(len(out),'attempts', sum(x['survived'] for x in out),'survived')
