import json,re,glob,os
exec(open('/verif/tools/status.py').read())
names={}
for f in sorted(glob.glob('/verif/lean/Verif/Props/*.lean')):
    for m in re.finditer(r'^(?:@\[[^\]]*\]\s*)?theorem\s+(C(\d+)[A-Za-z0-9_]*)',open(f).read(),re.M):
        names.setdefault('C'+m.group(2),[]).append('FF.Props.'+m.group(1))
claims=[]
ids=[json.loads(l)['id'] for l in open('/verif/properties.jsonl')]
for i in ids:
    if i in names:
        st=STATUS.get(i,('proved',''))
        claims.append(dict(property=i,status=st[0],theorems=names[i],note=st[1]))
    elif i in STATUS and STATUS[i][0]=='not_applicable':
        claims.append(dict(property=i,status='not_applicable',theorems=[],note=STATUS[i][1]))
json.dump({"claims":claims},open('/verif/MANIFEST.json','w'),indent=1)
print(len(claims), 'missing', [i for i in ids if i not in names])
