#!/usr/bin/env python3
"""Collect the property theorems (named Cnn_*) from lean/Verif/Props into MANIFEST.json."""
import json, re, glob, os
root = os.path.dirname(os.path.dirname(os.path.abspath(__file__)))
notes = json.load(open(os.path.join(root, 'tools', 'notes.json')))
props = [json.loads(l) for l in open(os.path.join(root, 'properties.jsonl')) if l.strip()]
thms = {}
for f in sorted(glob.glob(os.path.join(root, 'lean/Verif/Props/*.lean'))):
    for m in re.finditer(r'^theorem (C(\d+)_\S+)', open(f).read(), re.M):
        thms.setdefault('C' + m.group(2), []).append('Funpy.Props.' + m.group(1))
claims = []
for p in props:
    t = thms.get(p['id'], [])
    n = notes.get(p['id'], {})
    fails = [x.split('.')[-1] for x in t if re.search(r'_fails$', x)]
    part = [x.split('.')[-1] for x in t if x.endswith('_partial')]
    if 'status' in n: st = n['status']
    elif not t: st = 'not_applicable'
    elif part or fails: st = 'partial'
    else: st = 'proved'
    note = n.get('note', '' if t else 'not yet modelled')
    auto = ''
    if fails and st == 'proved': auto += 'Proved as stated; limits of the code outside the statement are recorded by ' + ', '.join(fails) + '. '
    elif fails: auto += 'The property is false of the code in general; refuted on concrete inputs by ' + ', '.join(fails) + '. '
    if part: auto += 'Proved under the restrictions stated in the docstrings of ' + ', '.join(part) + '. '
    claims.append(dict(property=p['id'], status=st, theorems=t, note=(auto + note).strip()))
json.dump({'claims': claims}, open(os.path.join(root, 'MANIFEST.json'), 'w'), indent=1)
from collections import Counter
print(Counter(c['status'] for c in claims), sum(len(c['theorems']) for c in claims))
