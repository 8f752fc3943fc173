#!/usr/bin/env python3
"""Writes ../MANIFEST.json from the theorem names in lean/Verif/Props and the notes below."""
import glob, json, os, re
ROOT = os.path.join(os.path.dirname(os.path.abspath(__file__)), '..')
names = {}
for f in sorted(glob.glob(os.path.join(ROOT, 'lean/Verif/Props/*.lean'))):
    t = open(f).read()
    ns = re.search(r'^namespace (\S+)', t, re.M).group(1)
    for m in re.finditer(r'^theorem (?:_root_\.NF\.)?((C\d+)_\w+)', t, re.M):
        names.setdefault(m.group(2), []).append(ns + '.' + m.group(1))
notes = json.load(open(os.path.join(ROOT, 'tools/notes.json')))
claims = []
for line in open(os.path.join(ROOT, 'properties.jsonl')):
    i = json.loads(line)['id']
    ths = names.pop(i, [])
    n = notes.get(i, '')
    status = 'proved' if ths else 'not_applicable'
    if any(t.endswith('_partial') for t in ths):
        status = 'partial'
    claims.append(dict(property=i, status=status, theorems=ths, note=n))
assert not names, names
json.dump({'claims': claims}, open(os.path.join(ROOT, 'MANIFEST.json'), 'w'), indent=1, ensure_ascii=False)
print(len(claims), sum(len(c['theorems']) for c in claims), [c['property'] for c in claims if c['status'] != 'proved'])
