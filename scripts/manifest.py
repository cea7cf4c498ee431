"""Regenerates MANIFEST.json: every theorem `Cnn_*` under lean/Verif/Props belongs to property Cnn."""
import re,json,glob,collections,os
os.chdir('/verif')
notes=json.load(open('scripts/notes.json'))
th=collections.defaultdict(list)
for f in sorted(glob.glob('lean/Verif/Props/*.lean')):
    for n in re.findall(r'^theorem (C\d\d_\w+)',open(f).read(),re.M): th[n[:3]].append('Mitex.'+n)
ids=[json.loads(l)['id'] for l in open('properties.jsonl')]
claims=[]
for i in ids:
    if not th[i]: print('missing',i); continue
    st,note=notes.get(i,['proved',''])
    if st=='proved' and any('partial' in t for t in th[i]): print('status?',i)
    claims.append({'property':i,'status':st,'theorems':th[i],'note':note})
json.dump({'claims':claims},open('MANIFEST.json','w'),indent=1)
print(len(claims),'claims',sum(map(lambda c:len(c['theorems']),claims)),'theorems')
