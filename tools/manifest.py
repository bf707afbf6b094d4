#!/usr/bin/env python3
"""Regenerate /verif/MANIFEST.json from the theorem names in lean/Verif/Props and the notes in tools/notes.json."""
import json, re, glob, os
root = os.path.dirname(os.path.dirname(os.path.abspath(__file__)))
props = [json.loads(l) for l in open(root + '/properties.jsonl')]
notes = json.load(open(root + '/tools/notes.json'))
thms = {}
for f in sorted(glob.glob(root + '/lean/Verif/Props/*.lean')):
    for m in re.finditer(r'^theorem ((C\d\d+)_\S+)', open(f).read(), re.M):
        if '_aux' in m.group(1):
            continue
        thms.setdefault(m.group(2), []).append('Poodle.Props.' + m.group(1))
claims = []
for p in props:
    t = thms.pop(p['id'], [])
    n = notes.get(p['id'], {})
    if isinstance(n, str):
        n = {'note': n}
    partial = (not t) or any(x.endswith('_partial') or x.endswith('_refuted') for x in t)
    st = n.get('status') or ('partial' if partial else 'proved')
    note = n.get('note', '' if t else 'not yet proved')
    claims.append({'property': p['id'], 'status': st, 'theorems': t, 'note': note})
assert not thms, thms.keys()
json.dump({'claims': claims}, open(root + '/MANIFEST.json', 'w'), indent=1)
print(sum(c['status'] == 'proved' for c in claims), 'proved', sum(c['status'] == 'partial' and bool(c['theorems']) for c in claims), 'partial', sum(not c['theorems'] for c in claims), 'open')
