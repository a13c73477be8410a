#!/usr/bin/env python3
"""Regenerates MANIFEST.json and lean/Verif.lean from the theorems in lean/Verif/Props."""
import json, re, glob, os
root = os.path.dirname(os.path.dirname(os.path.abspath(__file__)))
os.chdir(root)
NOTES = json.load(open('tools/notes.json'))
thms = {}
for f in sorted(glob.glob('lean/Verif/Props/*.lean')):
    for m in re.finditer(r'^theorem (C\d\d)(_\w+)', open(f).read(), re.M):
        thms.setdefault(m.group(1), []).append('LogSurgeon.' + m.group(1) + m.group(2))
claims = []
for l in open('properties.jsonl'):
    p = json.loads(l)['id']
    n = NOTES.get(p, {})
    t = thms.get(p, [])
    if not t and n.get('status') != 'not_applicable':
        continue
    status = n.get('status') or ('partial' if any(x.endswith('_partial') or x.endswith('_refuted') for x in t) else 'proved')
    claims.append({'property': p, 'status': status, 'theorems': t, 'note': n.get('note', '')})
json.dump({'claims': claims}, open('MANIFEST.json', 'w'), indent=1)
mods = sorted(os.path.basename(f)[:-5] for f in glob.glob('lean/Verif/Props/*.lean'))
open('lean/Verif.lean', 'w').write(''.join(f'import Verif.Props.{m}\n' for m in mods))
print(len(claims), 'claims', {s: sum(c['status'] == s for c in claims) for s in ('proved', 'partial', 'not_applicable')})
