#!/usr/bin/env python3
"""Rewrites the per-property table of DESIGN.md from properties.jsonl, MANIFEST.json and the theorem files."""
import json,re,glob
props=[json.loads(l) for l in open('/verif/properties.jsonl')]
man={c['property']:c for c in json.load(open('/verif/MANIFEST.json'))['claims']}
where={}
for f in sorted(glob.glob('/verif/lean/Verif/Props/*.lean')):
    for m in re.finditer(r"^theorem (C\d\d_\w+)",open(f).read(),re.M): where['Blink.'+m.group(1)]=f.split('/')[-1][:-5]
rows=[]
for p in props:
    c=man[p['id']]
    mods=[]
    for t in c['theorems']:
        if t in where and where[t] not in mods: mods.append(where[t])
    rows.append(f"| {p['id']} | {p['title']} | {c['status']} | {', '.join(mods)} |")
d=open('/verif/DESIGN.md').read()
a,rest=d.split('<!-- table -->\n'); _,b=rest.split('<!-- /table -->')
open('/verif/DESIGN.md','w').write(a+'<!-- table -->\n| id | property | status | module in `Verif/Props` |\n|----|----------|--------|------|\n'+'\n'.join(rows)+'\n<!-- /table -->'+b)
