#!/usr/bin/env python3
"""Seeded bugs. Usage: seed.py SEEDS.json OUT.jsonl [id ...]
For each seed: edit the model in the scratch copy /tmp/seed, evaluate the witness there, build, list
the declarations that fail, restore the model. Never touches /verif/lean."""
import json, os, re, subprocess, sys
S, V = '/tmp/seed', '/verif/lean'
def sh(c, t=3600):
    r = subprocess.run(c, shell=True, cwd=S, capture_output=True, text=True, timeout=t)
    return r.stdout + r.stderr
def encl(path, line):
    for l in reversed(open(os.path.join(S, path), encoding='utf-8').read().split('\n')[:line]):
        m = re.match(r'(?:@\[.*?\]\s*)?(?:private |protected )?(theorem|lemma|def|example|instance|inductive|structure)\b\s*(\S*)', l)
        if m: return m.group(2) if m.group(1) != 'example' else 'example'
    return '?'
def witness(w):
    os.makedirs('/tmp/ax', exist_ok=True)
    open('/tmp/ax/W.lean', 'w', encoding='utf-8').write(
        'import Verif.Spec.Decide\nimport Verif.Model.Ident\nimport Verif.Model.SourceMap\n'
        'import Verif.Spec.Lexical\nnamespace PM2\nopen Spec\nattribute [local instance] sampleTables\n'
        'def p (s : String) := (TokenStream.fromStr SourceMap.init s.toList).2\n'
        'def l (s : String) := (Literal.fromStr SourceMap.init s.toList).2\n#eval ' + w + '\n')
    b = sh('lake build Verif.Spec.Lexical Verif.Spec.Decide Verif.Model.Ident Verif.Model.SourceMap 2>&1 | grep "error" | head -3')
    return b + sh('lake env lean /tmp/ax/W.lean').strip()[:600]
seeds = json.load(open(sys.argv[1], encoding='utf-8'))
only = [a for a in sys.argv[3:] if a != '-w']
wonly = '-w' in sys.argv  # witnesses only, no full build
for s in seeds:
    if only and s['id'] not in only: continue
    f = os.path.join(S, s['file']); orig = open(os.path.join(V, s['file']), encoding='utf-8').read()
    n = orig.count(s['old'])
    if n != 1: print(s['id'], 'PATTERN COUNT', n); continue
    w0 = None
    if s.get('witness'): w0 = witness(s['witness'])
    open(f, 'w', encoding='utf-8').write(orig.replace(s['old'], s['new']))
    try:
        w1 = witness(s['witness']) if s.get('witness') else None
        out = '' if wonly else sh('lake build 2>&1')
        errs = []
        for m in re.finditer(r'error: (Verif/\S+?\.lean):(\d+):\d+', out):
            e = m.group(1)[6:-5].replace('/', '.') + ':' + encl(m.group(1), int(m.group(2)))
            if e not in errs: errs.append(e)
        bad = re.findall(r'^- (Verif\S+)', out, re.M)
        r = dict(id=s['id'], built=('Build completed successfully' in out), failed=errs, modules=bad,
                 witness_original=w0, witness_mutant=w1)
    finally:
        open(f, 'w', encoding='utf-8').write(orig)
    print(json.dumps(r, ensure_ascii=False), flush=True)
    open(sys.argv[2], 'a', encoding='utf-8').write(json.dumps(r, ensure_ascii=False) + '\n')
