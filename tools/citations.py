#!/usr/bin/env python3
"""Check the citations of the model: for `src/f.rs:a-b `name``, the definition of the last path component of
name must be inside (or start within two lines of) the cited lines."""
import re, glob
bad = n = 0
for f in sorted(glob.glob('/verif/lean/Verif/Model/*.lean')):
    t = open(f, encoding='utf-8').read()
    for m in re.finditer(r'(src/\w+\.rs):(\d+)-(\d+)(?:\)|:)?[^`\n]{0,40}\n?[^`\n]{0,30}`([\w:$<>]+)', t):
        file, a, b, name = m.group(1), int(m.group(2)), int(m.group(3)), m.group(4)
        try: lines = open('/repo/' + file).read().split('\n')
        except FileNotFoundError: print('NOFILE', f, m.group(0)); bad += 1; continue
        n += 1
        last = re.sub(r'<.*', '', name.split('::')[-1])
        seg = '\n'.join(lines[max(0, a - 3):b + 1])
        if b > len(lines) or (last and not re.search(r'\b' + re.escape(last) + r'\b', seg)):
            line = t[:m.start()].count('\n') + 1
            where = [k for k, l in enumerate(lines, 1) if re.search(r'\b(fn|struct|enum|trait|const|static)\s+' + re.escape(last) + r'\b', l)]
            print(f'{f[19:]}:{line}: {file}:{a}-{b} `{name}` -> defined at {where}'); bad += 1
print(n, 'citations,', bad, 'suspect')
