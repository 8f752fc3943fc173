#!/usr/bin/env python3
"""Writes ../DESIGN.md: tools/design_head.md + the per-property table (from properties.jsonl, MANIFEST.json, tools/plan.json) + tools/design_tail.md."""
import json, os
R = os.path.join(os.path.dirname(os.path.abspath(__file__)), '..')
plan = json.load(open(os.path.join(R, 'tools/plan.json')))
man = {c['property']: c for c in json.load(open(os.path.join(R, 'MANIFEST.json')))['claims']}
out = [open(os.path.join(R, 'tools/design_head.md')).read()]
out.append('## Per property: what is modelled, how it is proved\n')
out.append('| id | property | modelled by | proof | theorems |\n|---|---|---|---|---|')
for l in open(os.path.join(R, 'properties.jsonl')):
    p = json.loads(l)
    m, h = plan[p['id']]
    ths = ', '.join('`%s`' % t.split('.', 1)[1] for t in man[p['id']]['theorems'])
    out.append('| %s | %s | %s | %s | %s |' % (p['id'], p['title'], m, h, ths))
out.append('')
out.append(open(os.path.join(R, 'tools/design_tail.md')).read())
open(os.path.join(R, 'DESIGN.md'), 'w').write('\n'.join(out))
