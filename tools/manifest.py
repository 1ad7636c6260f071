#!/usr/bin/env python3
"""Regenerates MANIFEST.json from the theorem names Cnn_* in lean/Verif/Props and tools/status.json."""
import re, json, glob, os
root = os.path.dirname(os.path.dirname(os.path.abspath(__file__)))
ths = {}
for f in sorted(glob.glob(root + '/lean/Verif/Props/*.lean')):
    for m in re.finditer(r'^theorem ((C\d\d+)_\w+)', open(f).read(), re.M):
        ths.setdefault(m.group(2), []).append('Peyl.' + m.group(1))
status = json.load(open(root + '/tools/status.json'))
claims = []
for l in open(root + '/properties.jsonl'):
    i = json.loads(l)['id']
    st = status.get(i)
    if st is None:
        print('no status', i, ths.get(i)); continue
    if not ths.get(i) and st['status'] != 'not_applicable':
        print('NO THEOREMS', i); continue
    claims.append({'property': i, 'status': st['status'], 'theorems': ths.get(i, []), 'note': st['note']})
for i in ths:
    if i not in status: print('theorems but no status', i)
json.dump({'claims': claims}, open(root + '/MANIFEST.json', 'w'), indent=1, ensure_ascii=False)
