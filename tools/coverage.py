#!/usr/bin/env python3
"""List the functions of /repo/src that no model definition cites."""
import re, glob, os, sys
root = os.path.join(os.path.dirname(__file__), '..', 'lean', 'Verif', 'Model')
cited = {}
for f in glob.glob(root + '/*.lean'):
    t = open(f).read()
    cur = None
    for c in re.findall(r'/--.*?-/|/-!.*?-/', t, re.S):
        if 'Not modelled' in c:
            c = c[:c.index('Not modelled')]
        cur = None
        for m in re.finditer(r'(src/[\w/]+\.rs):|\b(\d+)(?:-(\d+))?\b', c):
            if m.group(1): cur = m.group(1)
            elif cur:
                a = int(m.group(2)); b = int(m.group(3) or a)
                cited.setdefault(cur, set()).update(range(a, b + 1))
tot = miss = 0
for f in sorted(glob.glob('/repo/src/**/*.rs', recursive=True)):
    rel = f[len('/repo/'):]
    for n, l in enumerate(open(f), 1):
        m = re.match(r'\s*(?:pub(?:\([^)]*\))? )?(?:const )?(?:unsafe )?fn (\w+)', l)
        if m:
            tot += 1
            near = cited.get(rel, set())
            if not any(k in near for k in range(n, n + 4)):
                miss += 1
                print(f'{rel}:{n}: {m.group(1)}')
print(f'{tot} functions, {miss} not cited')
