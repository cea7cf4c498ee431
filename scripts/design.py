#!/usr/bin/env python3
"""Writes DESIGN.md: scripts/design_head.md, the table of the properties, scripts/design_tail.md."""
import json
M={c['property']:c for c in json.load(open('MANIFEST.json'))['claims']}
how=json.load(open('scripts/design_how.json'))
out=open('scripts/design_head.md').read()
out+='| id | property | modelled in | how it is proved | status |\n|----|----------|-------------|------------------|--------|\n'
for l in open('properties.jsonl'):
    p=json.loads(l); i=p['id']; m,h=how.get(i,['',''])
    out+=f"| {i} | {p['title']} | {m} | {h} | {M[i]['status']} |\n"
out+=open('scripts/design_tail.md').read()
open('DESIGN.md','w').write(out)
