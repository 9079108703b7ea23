# generate MANIFEST.json from theorem names in Props files + notes file
import re,json,glob,sys
notes=json.load(open('/verif/tools/notes.json'))
th={}
for f in sorted(glob.glob('/verif/lean/Verif/Props/*.lean')):
    s=open(f).read()
    for m in re.finditer(r'^theorem\s+((C\d\d+)_[A-Za-z0-9_\']+)',s,re.M):
        th.setdefault(m.group(2),[]).append('Doa.Props.'+m.group(1))
claims=[]
ids=[json.loads(l)['id'] for l in open('/verif/properties.jsonl')]
for i in ids:
    if i in th:
        n=notes.get(i,{})
        st=n.get('status','proved')
        claims.append({"property":i,"status":st,"theorems":th[i]+n.get('extra',[]),"note":n.get('note','')})
json.dump({"claims":claims},open('/verif/MANIFEST.json','w'),indent=1)
print(len(claims),[i for i in ids if i not in th])
