#!/usr/bin/env python3
"""DESIGN.md = design_head.md + one section per property (plan text, results) + bugs (design_tail.md)."""
import json, re
R = '/verif/'
props = [json.loads(l) for l in open(R + 'properties.jsonl')]
man = {c['property']: c for c in json.load(open(R + 'MANIFEST.json'))['claims']}
notes = json.load(open(R + 'tools/notes.json'))
plan = json.load(open(R + 'tools/plan.json'))
out = open(R + 'tools/design_head.md').read()
for p in props:
    i = p['id']; m = man.get(i, {})
    out += f"\n### {i} {p['title']} ({m.get('status', 'planned')})\n"
    if plan.get(i): out += plan[i] + '\n'
    n = notes.get(i, {}).get('note')
    if n: out += '\n' + n + '\n'
    t = [x.split('.')[-1] for x in m.get('theorems', [])]
    if t: out += '\nTheorems: ' + ', '.join(f'`{x}`' for x in t) + '\n'
out += '\n' + open(R + 'tools/design_tail.md').read()
open(R + 'DESIGN.md', 'w').write(out)
