#!/usr/bin/env python3
"""Writes MANIFEST.json; theorem names are collected from the sources by prefix cNN_ (property CNN)."""
import re, json, glob, sys
props=[json.loads(l) for l in open('/verif/properties.jsonl')]
thms={}
for f in sorted(glob.glob('/verif/lean/Verif/**/*.lean',recursive=True)):
    ns=[]
    for line in open(f):
        m=re.match(r'^namespace (\S+)',line)
        if m: ns.append(m.group(1)); continue
        m=re.match(r'^end (\S+)',line)
        if m and ns and ns[-1]==m.group(1): ns.pop(); continue
        m=re.match(r'^(?:private )?theorem (c(\d\d\d?)_\S+)',line)
        if m: thms.setdefault('C'+m.group(2),[]).append('.'.join(ns+[m.group(1)]))
exec(open('/verif/tools/status.py').read())   # STATUS: id -> (status, note)
claims=[]
for p in props:
    i=p['id']
    st,note=STATUS.get(i,('partial','not yet modelled'))
    t=thms.get(i,[])
    if not t and st!='not_applicable':
        continue
    claims.append({'property':i,'status':st,'theorems':t,'note':note})
json.dump({'claims':claims},open('/verif/MANIFEST.json','w'),indent=1)
print(len(claims),'claims', sum(len(c['theorems']) for c in claims),'theorems; missing:',[p['id'] for p in props if p['id'] not in [c['property'] for c in claims]])
