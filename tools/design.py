#!/usr/bin/env python3
"""writes DESIGN.md: tools/design_head.md + plan table (tools/design_rows.py) + modelled lines (from the comments of the model) + axioms (from '#print axioms')"""
import json,os,re,subprocess,sys,collections
here=os.path.dirname(os.path.abspath(__file__)); root=os.path.join(here,'..')
m=json.load(open(os.path.join(root,'MANIFEST.json')))
props={json.loads(l)['id']:json.loads(l) for l in open(os.path.join(root,'properties.jsonl')) if l.strip()}
rows={}
exec(open(os.path.join(here,'design_rows.py')).read())
out=[open(os.path.join(here,'design_head.md')).read().rstrip()]
out.append("\n## Plan per property\n| id | property | what is modelled | how it is proved | status |\n|----|----|----|----|----|")
for c in m['claims']:
    i=c['property']; mod,pr=rows.get(i,("",""))
    if not mod: print("no row",i,file=sys.stderr)
    out.append(f"| {i} | {props[i]['title']} | {mod} | {pr} | {c['status']} |")
out.append("\nEvery entry `partial` is a property that the code violates: the exact violation is proved with a concrete reachable witness, and what remains true is proved (theorems with suffix `_partial`). The notes in MANIFEST.json say which part is missing.")
out.append("\n## Which code is modelled\nFile and line ranges cited by the definitions in `lean/Verif/Model` (generated from their comments). Lines not in this table are not modelled.\n\n| model | code |\n|----|----|")
md=os.path.join(root,'lean/Verif/Model')
names={}
for d,_,fs in os.walk('/repo'):
    for f in fs:
        if f.endswith(('.cpp','.hpp')): names.setdefault(f,[]).append(os.path.relpath(os.path.join(d,f),'/repo'))
for f in sorted(os.listdir(md)):
    s=open(os.path.join(md,f)).read()
    cit=collections.OrderedDict()
    for a,b in re.findall(r'([A-Za-z_0-9]+\.[ch]pp):([0-9]+(?:-[0-9]+)?)',s):
        cit.setdefault(a,[]).append(b)
    def key(r): return int(r.split('-')[0])
    txt='; '.join(f"{(names.get(a) or [a])[0]}: {', '.join(sorted(set(b),key=key))}" for a,b in cit.items())
    out.append(f"| {f[:-5]} | {txt} |")
ths=list(dict.fromkeys(t for c in m['claims'] for t in c['theorems']))
tmp='/tmp/axioms_check.lean'
open(tmp,'w').write("import Verif\n"+"\n".join("#print axioms "+t for t in ths)+"\n")
r=subprocess.run(['lake','env','lean',tmp],cwd=os.path.join(root,'lean'),capture_output=True,text=True).stdout
groups=collections.OrderedDict()
for l in r.splitlines():
    g=re.match(r"'(.*)' (?:depends on axioms: \[(.*)\]|does not depend on any axioms)",l)
    if g: groups.setdefault(g.group(2) or 'none',[]).append(g.group(1))
    else: print("unexpected:",l,file=sys.stderr)
assert sum(map(len,groups.values()))==len(ths)
assert all(set(k.split(', '))<={'propext','Classical.choice','Quot.sound','none'} for k in groups)
out.append("\n## Axioms\nOutput of `#print axioms` for every theorem named in MANIFEST.json, grouped by the set of axioms.")
for k,v in groups.items(): out.append(f"\n**{k}** ({len(v)}): "+', '.join('`'+x.replace('NgsAMG.','')+'`' for x in v))
open(os.path.join(root,'DESIGN.md'),'w').write('\n'.join(out)+'\n')
print({k:len(v) for k,v in groups.items()})
