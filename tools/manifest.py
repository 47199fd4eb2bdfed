#!/usr/bin/env python3
"""Writes MANIFEST.json: one claim per property, theorems collected by the prefix Cnn_ in lean/Verif/Props.
A claim is 'partial' if one of its theorems has the suffix _partial or _refuted."""
import json, re, glob, os
root = os.path.dirname(os.path.dirname(os.path.abspath(__file__)))
notes = json.load(open(os.path.join(root, 'tools', 'notes.json')))
thms = {}
for f in sorted(glob.glob(os.path.join(root, 'lean/Verif/Props/*.lean'))):
    ns = None
    for line in open(f):
        m = re.match(r'namespace (\S+)', line)
        if m: ns = m.group(1)
        m = re.match(r'theorem (C\d\d+)_(\w+)', line)
        if m: thms.setdefault(m.group(1), []).append(f'{ns}.{m.group(1)}_{m.group(2)}')
claims = []
for line in open(os.path.join(root, 'properties.jsonl')):
    p = json.loads(line)['id']
    t = thms.get(p, [])
    if not t: continue
    st = 'partial' if any(x.endswith('_partial') or x.endswith('_refuted') for x in t) else 'proved'
    st = notes.get(p, {}).get('status', st)
    claims.append({'property': p, 'status': st, 'theorems': t, 'note': notes.get(p, {}).get('note', '')})
json.dump({'claims': claims}, open(os.path.join(root, 'MANIFEST.json'), 'w'), indent=1)
print(len(claims), 'claims', sum(c['status'] == 'proved' for c in claims), 'proved')
