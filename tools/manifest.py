#!/usr/bin/env python3
"""Regenerates MANIFEST.json from the names of the property theorems.

A theorem `cNN_...` in lean/Verif/Props belongs to property CNN.  Status: `partial` if one of its
theorems ends in `_partial`, or if it is listed in PARTIAL; otherwise `proved`."""
import json, re, glob, os
root = os.path.dirname(os.path.dirname(os.path.abspath(__file__)))
notes = json.load(open(os.path.join(root, 'tools', 'notes.json')))
props = [json.loads(l) for l in open(os.path.join(root, 'properties.jsonl')) if l.strip()]
thms = {}
for f in sorted(glob.glob(os.path.join(root, 'lean/Verif/Props/*.lean'))):
    txt = open(f).read()
    ns = re.search(r'^namespace (\S+)', txt, re.M).group(1)
    for m in re.finditer(r'^theorem (c(\d\d\d?)_\S+)', txt, re.M):
        thms.setdefault('C' + m.group(2), []).append(ns + '.' + m.group(1))
claims = []
for p in props:
    i = p['id']
    if i not in thms:
        continue
    t = thms[i]
    status = 'partial' if any(x.endswith('_partial') for x in t) else 'proved'
    status = notes.get(i, {}).get('status', status)
    claims.append({'property': i, 'status': status, 'theorems': t, 'note': notes.get(i, {}).get('note', '')})
json.dump({'claims': claims}, open(os.path.join(root, 'MANIFEST.json'), 'w'), indent=1)
print(len(claims), 'claims;', 'missing:', [p['id'] for p in props if p['id'] not in thms])
