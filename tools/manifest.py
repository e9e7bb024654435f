#!/usr/bin/env python3
"""Add or replace claims in MANIFEST.json: manifest.py C06 proved C06_tiling ... [-n note]"""
import json, sys, os
p = os.path.join(os.path.dirname(__file__), '..', 'MANIFEST.json')
m = json.load(open(p))
cl = {c['property']: c for c in m['claims']}
def add(prop, status, names, note=None):
    old = cl.get(prop, {})
    cl[prop] = {'property': prop, 'status': status,
                'theorems': ['PM2.Props.' + n if '.' not in n else n for n in names],
                'note': note if note is not None else old.get('note', '')}
for line in sys.stdin:
    line = line.strip()
    if not line: continue
    line, _, note = line.partition('|')
    w = line.split()
    add(w[0], w[1], w[2:], note.strip() or None)
out = sorted(cl.values(), key=lambda c: c['property'])
open(p, 'w').write('{"claims": [\n ' + ',\n '.join(json.dumps(c) for c in out) + '\n]}\n')
