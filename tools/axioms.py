#!/usr/bin/env python3
"""Regenerate /verif/AXIOMS.md: the axioms of every theorem in MANIFEST.json (run after `lake build`)."""
import json, os, re, subprocess, tempfile
root = os.path.dirname(os.path.dirname(os.path.abspath(__file__)))
claims = json.load(open(root + '/MANIFEST.json'))['claims']
names = [t for c in claims for t in c['theorems']]
with tempfile.NamedTemporaryFile('w', suffix='.lean', delete=False) as f:
    f.write('import Verif\n' + ''.join('#print axioms %s\n' % n for n in names))
out = subprocess.run(['lake', 'env', 'lean', f.name], cwd=root + '/lean', capture_output=True, text=True).stdout
os.unlink(f.name)
ax = {}
for m in re.finditer(r"'(\S+)' (?:does not depend on any axioms|depends on axioms: \[([^\]]*)\])", out):
    ax[m.group(1)] = [a.strip() for a in (m.group(2) or '').replace('\n', ' ').split(',') if a.strip()]
with open(root + '/AXIOMS.md', 'w') as f:
    f.write('# Axioms used by each theorem\n\n| property | theorem | axioms |\n|---|---|---|\n')
    for c in claims:
        for t in c['theorems']:
            f.write('| %s | `%s` | %s |\n' % (c['property'], t.replace('Poodle.Props.', ''), ', '.join(ax[t]) or 'none'))
print(len(names), 'theorems;', sorted({a for v in ax.values() for a in v}))
