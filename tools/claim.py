#!/usr/bin/env python3
"""Upserts claims (JSON list on stdin) into MANIFEST.json; regenerates lean/Verif.lean imports."""
import json, sys, os
root = os.path.dirname(os.path.dirname(os.path.abspath(__file__)))
mp = os.path.join(root, 'MANIFEST.json')
m = json.load(open(mp))
d = {c['property']: c for c in m['claims']}
txt = sys.stdin.read().strip()
for c in (json.loads(txt) if txt else []):
    assert c['status'] in ('proved', 'partial', 'not_applicable'), c
    d[c['property']] = {'property': c['property'], 'status': c['status'], 'theorems': c['theorems'], 'note': c.get('note', '')}
m['claims'] = [d[k] for k in sorted(d)]
json.dump(m, open(mp, 'w'), indent=1, ensure_ascii=False)
mods = []
for dp, _, fs in os.walk(os.path.join(root, 'lean', 'Verif')):
    for f in fs:
        if f.endswith('.lean'):
            mods.append(os.path.relpath(os.path.join(dp, f), os.path.join(root, 'lean'))[:-5].replace('/', '.'))
open(os.path.join(root, 'lean', 'Verif.lean'), 'w').write(''.join('import %s\n' % x for x in sorted(mods)))
props = [json.loads(l)['id'] for l in open(os.path.join(root, 'properties.jsonl'))]
print('claims', len(d), 'unclaimed', [p for p in props if p not in d])
