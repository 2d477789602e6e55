import json,re,glob,collections
# property -> (status, note); theorems are collected by name prefix Cxx_ from the Props files
notes=json.load(open('/verif/tools/notes.json'))
thms=collections.defaultdict(list)
for f in sorted(glob.glob('/verif/lean/Verif/Props/*.lean')):
    for m in re.finditer(r'^(?:private )?theorem (\S+)', open(f).read(), re.M):
        n=m.group(1)
        k=re.match(r'(C\d\d+)_',n)
        if k: thms[k.group(1)].append(n)
claims=[]
ids=[json.loads(l)['id'] for l in open('/verif/properties.jsonl')]
for i in ids:
    n=notes.get(i,{})
    t=sorted(set(thms.get(i,[])+n.get('extra',[])))
    if not t: continue
    st=n.get('status') or ('partial' if any(x.endswith('_partial') for x in t) else 'proved')
    claims.append(dict(property=i,status=st,theorems=t,note=n.get('note','')))
json.dump(dict(claims=claims),open('/verif/MANIFEST.json','w'),indent=1,ensure_ascii=False)
print(len(claims),'claims of',len(ids), collections.Counter(c['status'] for c in claims)); print('missing',[i for i in ids if not thms.get(i)])
