"""DESIGN.md = tools/design_head.md + one entry per property + tools/design_tail.md"""
import json,re,glob
M={c['property']:c for c in json.load(open('/verif/MANIFEST.json'))['claims']}
where={}
for f in glob.glob('/verif/lean/Verif/**/*.lean',recursive=True):
    for m in re.finditer(r'^theorem (\S+)',open(f).read(),re.M):
        where.setdefault(m.group(1),f[len('/verif/lean/'):])
how=json.load(open('/verif/tools/how.json'))
out=[open('/verif/tools/design_head.md').read(),"## 2. Per property: what is modelled and how it is proved\n\n"]
for l in open('/verif/properties.jsonl'):
    p=json.loads(l); c=M.get(p['id'])
    out.append('### %s %s — %s\n\n'%(p['id'],p['title'],c['status'] if c else 'in work'))
    if p['id'] in how: out.append(how[p['id']]+'\n\n')
    if c:
        if c['note']: out.append('Verdict: '+c['note']+'\n\n')
        fs={}
        for t in c['theorems']: fs.setdefault(where.get(t,'?'),[]).append(t)
        for f,ts in fs.items(): out.append('* `%s`: %s\n'%(f,', '.join('`%s`'%t for t in ts)))
        out.append('\n')
out.append(open('/verif/tools/design_tail.md').read())
open('/verif/DESIGN.md','w').write(''.join(out))
