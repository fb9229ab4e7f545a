#!/usr/bin/env python3
"""Writes the per-property table of DESIGN.md (between the two markers) from MANIFEST.json and properties.jsonl, and AXIOMS.md from
the output of `#print axioms` (file given as argument, optional)."""
import json,re,sys,os
root=os.path.dirname(os.path.dirname(os.path.abspath(__file__)))
props={}
for l in open(root+'/properties.jsonl'):
    p=json.loads(l); props[p['id']]=p
M=json.load(open(root+'/MANIFEST.json'))
rows=['| property | status | theorems | what is proved / what is missing |','|---|---|---|---|']
for c in M['claims']:
    rows.append('| %s %s | %s | %d | %s |'%(c['property'],props[c['property']]['title'].replace('|','\\|'),c['status'],len(c['theorems']),c['note'].replace('|','\\|')))
d=open(root+'/DESIGN.md').read()
a,b='<!-- table -->','<!-- /table -->'
d=d[:d.index(a)+len(a)]+'\n'+'\n'.join(rows)+'\n'+d[d.index(b):]
open(root+'/DESIGN.md','w').write(d)
if len(sys.argv)>1:
    s=' '.join(open(sys.argv[1]).read().split())
    out={}
    for m in re.finditer(r"'([^']+'?)' (does not depend on any axioms|depends on axioms: \[([^\]]*)\])",s):
        out.setdefault(m.group(3) or 'none',[]).append(m.group(1))
    with open(root+'/AXIOMS.md','w') as f:
        f.write('# Axioms per theorem\n\nOutput of `#print axioms` for every theorem named in MANIFEST.json, grouped. No axiom is declared in this project.\n')
        for k in sorted(out,key=len):
            f.write('\n## %s (%d theorems)\n\n%s\n'%(k,len(out[k]),' '.join('`%s`'%x for x in sorted(out[k]))))
    print({k:len(v) for k,v in out.items()})
