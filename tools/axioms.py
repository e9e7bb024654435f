#!/usr/bin/env python3
"""Print the axioms of every theorem in MANIFEST.json, grouped."""
import json, os, subprocess, re, collections, tempfile
here = os.path.join(os.path.dirname(os.path.abspath(__file__)), '..')
m = json.load(open(here + '/MANIFEST.json'))
names = [t for c in m['claims'] for t in c['theorems']]
with tempfile.NamedTemporaryFile('w', suffix='.lean', delete=False) as f:
    f.write('import Verif\n' + ''.join(f'#print axioms {n}\n' for n in names))
out = subprocess.run(['lake', 'env', 'lean', f.name], cwd=here + '/lean', capture_output=True, text=True); out = out.stdout + out.stderr
g = collections.defaultdict(list)
if os.environ.get("RAW"): print(out)
for a, b in re.findall(r"'(\S+)' (?:depends on axioms: \[([^\]]*)\]|does not depend)", out, re.S):
    g[' '.join(b.split()) or 'none'].append(a.replace('PM2.Props.', ''))
for k, v in sorted(g.items(), key=lambda x: len(x[1])):
    print(f'{k}: {len(v)}')
    if len(v) < 40: print('   ' + ' '.join(v))
print(len(names), 'theorems,', sum(map(len, g.values())), 'reported')
