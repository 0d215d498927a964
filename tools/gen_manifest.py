#!/usr/bin/env python3
"""Writes MANIFEST.json; the names are the theorems whose names start with the property id, plus extras."""
import json,re,glob,os
root=os.path.dirname(os.path.dirname(os.path.abspath(__file__)))
thms={}
for f in sorted(glob.glob(root+'/lean/Verif/Props/*.lean')):
    ns=[]
    for line in open(f):
        m=re.match(r'namespace (\S+)',line)
        if m: ns.append(m.group(1)); continue
        m=re.match(r'end (\S+)',line)
        if m and ns and ns[-1]==m.group(1): ns.pop(); continue
        m=re.match(r'theorem ((?:C\d\d+_)+\S*)',line)
        if m:
            name='.'.join(ns+[m.group(1)])
            for c in re.findall(r'C\d\d+(?=_)',m.group(1)):
                thms.setdefault(c,[]).append(name)
notes=json.load(open(root+'/tools/manifest_notes.json'))
claims=[]
for l in open(root+'/properties.jsonl'):
    d=json.loads(l); i=d['id']; n=notes.get(i,{})
    t=thms.get(i,[])
    st=n.get('status', 'proved' if t else 'partial')
    if not t and st!='not_applicable': print('no theorems for',i); continue
    claims.append({'property':i,'status':st,'theorems':t,'note':n.get('note','')})
json.dump({'claims':claims},open(root+'/MANIFEST.json','w'),indent=1)
