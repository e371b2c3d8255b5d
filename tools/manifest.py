import json,re,glob
props=[json.loads(l) for l in open('/verif/properties.jsonl')]
th={}
for f in sorted(glob.glob('/verif/lean/Verif/Props/*.lean')):
    t=open(f).read(); ns=re.search(r'^namespace (\S+)',t,re.M)[1]
    for m in re.finditer(r'^theorem (C\d\d+)(_\w+)',t,re.M):
        th.setdefault(m[1],[]).append(ns+'.'+m[1]+m[2])
exec(open('/verif/tools/status.py').read())  # PARTIAL: id->note ; PROVED: id->note
claims=[]
for p in props:
    i=p['id']
    t=th.get(i,[])
    if i in PROVED and t: claims.append(dict(property=i,status='proved',theorems=t,note=PROVED[i]))
    elif i in PARTIAL and t: claims.append(dict(property=i,status='partial',theorems=t,note=PARTIAL[i]))
    elif t: print("no status for",i,t)
    else: print("no theorems for",i, end='; ')
json.dump({"claims":claims},open('/verif/MANIFEST.json','w'),indent=1)
fs=sorted(glob.glob('/verif/lean/Verif/**/*.lean',recursive=True))
open('/verif/lean/Verif.lean','w').write("".join("import "+f[len('/verif/lean/'):-5].replace('/','.')+"\n" for f in fs))
print(len(claims),"claims")
