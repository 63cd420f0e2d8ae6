import json,re,glob
# property -> (status, note); theorems collected by prefix cNN_
NOTES = json.load(open('/verif/tools/notes.json'))
names={}
for f in sorted(glob.glob('/verif/lean/Verif/Props/*.lean')):
    s=open(f).read()
    ns='Honeycomb'
    for m in re.finditer(r'^(?:private )?theorem (c(\d+)_\w*)',s,re.M):
        names.setdefault('C'+m.group(2),[]).append(ns+'.'+m.group(1))
claims=[]
for l in open('/verif/properties.jsonl'):
    p=json.loads(l)['id']
    n=NOTES.get(p,{})
    ths=names.get(p,[])
    st=n.get('status') or ('proved' if ths and not any('_partial' in t for t in ths) else 'partial')
    note=n.get('note','')
    if not ths and not note: note='not yet proved'
    claims.append({"property":p,"status":st,"theorems":ths,"note":note})
json.dump({"claims":claims},open('/verif/MANIFEST.json','w'),indent=1,ensure_ascii=False)
print(sum(1 for c in claims if c['theorems']),'with theorems of',len(claims))
