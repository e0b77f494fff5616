#!/usr/bin/env python3
"""Regenerates the table at the end of DESIGN.md."""
import json
m={c['property']:c for c in json.load(open('MANIFEST.json'))['claims']}
d=open('DESIGN.md').read()
i=d.index('## Results')
out=['## Results','','Generated by `tools/gen_design.py` from `properties.jsonl` and `MANIFEST.json`.','']
for l in open('properties.jsonl'):
    p=json.loads(l); c=m[p['id']]
    out.append('**%s %s** (%s)  '%(p['id'],p['title'],c['status']))
    out.append(', '.join('`%s`'%t.split('.')[-1] for t in c['theorems'])+'  ')
    if c.get('note'): out.append(c['note'])
    out.append('')
open('DESIGN.md','w').write(d[:i]+'\n'.join(out))
