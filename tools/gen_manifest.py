#!/usr/bin/env python3
"""Regenerate /verif/MANIFEST.json from the theorem names in lean/Verif/Props (prefix Cxx_)."""
import re, glob, json, os
root = os.path.join(os.path.dirname(os.path.abspath(__file__)), '..')
notes = json.load(open(os.path.join(root, 'tools', 'notes.json')))
th = {}
for f in sorted(glob.glob(os.path.join(root, 'lean/Verif/Props/*.lean'))):
    ns = ''
    for l in open(f):
        m = re.match(r'namespace (\S+)', l)
        if m and not ns: ns = m.group(1) + '.'
        m = re.match(r'theorem (C(\d+)_\w+)', l)
        if m: th.setdefault('C' + m.group(2), []).append(ns + m.group(1))
ids = [json.loads(l)['id'] for l in open(os.path.join(root, 'properties.jsonl'))]
claims = []
for i in ids:
    t = th.get(i, [])
    if not t: continue
    part = any('_partial' in x or '_refuted' in x for x in t)
    st = notes.get(i, {}).get('status') or ('partial' if part else 'proved')
    claims.append({'property': i, 'status': st, 'theorems': t, 'note': notes.get(i, {}).get('note', '')})
for i in ids:
    if i not in th and i in notes and notes[i].get('status') == 'not_applicable':
        claims.append({'property': i, 'status': 'not_applicable', 'theorems': [], 'note': notes[i]['note']})
claims.sort(key=lambda c: int(c['property'][1:]))
json.dump({'claims': claims}, open(os.path.join(root, 'MANIFEST.json'), 'w'), indent=1)
print(len(claims), 'claims; missing:', [i for i in ids if i not in {c['property'] for c in claims}])
for k in th:
    if k not in ids: print('theorems for unknown property', k)
