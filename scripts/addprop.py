#!/usr/bin/env python3
"""Append or replace a property: addprop.py '<json object>'."""
import json, sys
new = json.loads(sys.argv[1])
rows = [json.loads(l) for l in open('/verif/properties.jsonl')]
rows = [r for r in rows if r['id'] != new['id']] + [new]
rows.sort(key=lambda r: r['id'])
open('/verif/properties.jsonl', 'w').write(''.join(json.dumps(r, ensure_ascii=False) + '\n' for r in rows))
