#!/usr/bin/env python3
"""Make small edits of the model and build the project after each, until the first proof fails. Examples and tests are left
out, so that only theorems can notice an edit. Usage: survive.py OUT per-definition FILE...
With ONLY='name ...', only these definitions are edited.
OUT gets a line for each edit: caught (and where), SURVIVED, or does not compile. Works in /tmp/mb."""
import json, os, random, re, shutil, signal, subprocess, sys
sys.path.insert(0, os.path.dirname(os.path.abspath(__file__)))
import statements
V = os.path.join(os.path.dirname(os.path.abspath(__file__)), '..', 'lean')
S = '/tmp/mb'
CH = re.compile(r"'(\\x[0-9a-f]{2}|\\u[0-9a-f]{4}|\\.|[^\\'\n])'")
def noexamples(src):
    out = []
    for d in statements.decls(src):
        if re.match(r'(?:private )?(example\b|theorem \w*_example\b)', d):
            if out and out[-1].startswith('/--'): out.pop()
            continue
        out.append(d)
    return '\n'.join(out)
def setup():
    if not os.path.exists(S): subprocess.run(['cp', '-r', V, S], check=True)
    for r, _, fs in os.walk(V + '/Verif'):
        for f in fs:
            if not f.endswith('.lean'): continue
            p = os.path.join(r, f); q = S + p[len(V):]
            t = open(p).read()
            if '/Props/' in p or '/Tests/' in p or '/Proof/' in p: t = noexamples(t)
            os.makedirs(os.path.dirname(q), exist_ok=True)
            if not os.path.exists(q) or open(q).read() != t: open(q, 'w').write(t)
def imports(timed):
    '''what is built: all modules, or those that do not use the models that count steps, which would notice every edit of
    what they erase to'''
    ms = [l.split()[1] for l in open(V + '/Verif.lean') if '.Tests.' not in l]
    deps = {m: set(re.findall(r'^import (Verif\S+)', open(f"{V}/{m.replace('.', '/')}.lean").read(), re.M)) for m in ms}
    bad = {m for m in ms if m.startswith('Verif.Model.Timed')}
    while True:
        new = {m for m in ms if deps[m] & bad} - bad
        if not new: break
        bad |= new
    open(S + '/Verif.lean', 'w').write(''.join(f'import {m}\n' for m in ms if timed or m not in bad))
SWAP = [(' ∧ ', ' ∨ '), (' ∨ ', ' ∧ '), (' && ', ' || '), (' || ', ' && '), (' ≤ ', ' < '), (' < ', ' ≤ '), (' > ', ' ≥ '), (' ≥ ', ' > '), ('.joint', '.alone'), ('.alone', '.joint'),
        (' true', ' false'), (' false', ' true'), ('!', ''), ('.parenthesis', '.brace'), ('.brace', '.bracket'), ('.fallback', '.compiler'), ('.compiler', '.fallback'), ('.lo', '.hi'), ('.hi', '.lo'),
        ('.fst', '.snd'), ('.snd', '.fst'), ('.1', '.2'), ('.2', '.1'), (' + ', ' - '), (' - ', ' + '), ('.take ', '.drop '), ('.drop ', '.take '), ('.panic', '.mismatch'), ('.mismatch', '.panic'), (' some ', ' none -- '),
        ('.start', '.end_'), ('.line', '.column'), ('.column', '.line'), ('max ', 'min '), ('min ', 'max '), ('.ok ()', '.panic'), (' = ', ' ≠ '), (' ≠ ', ' = '), (' == ', ' != '), ('.reverse', ''), (' ++ ', ' ++ [] -- ')]
def edits(l):
    body = l.split(' -- ')[0]
    chars = [m.span() for m in CH.finditer(body)]
    inch = lambda p: any(a <= p < b for a, b in chars)
    for a, b in chars:
        yield l[:a] + ("'\\x7f'" if body[a:b] != "'\\x7f'" else "'a'") + l[b:]
    for pat, new in SWAP:
        p = body.find(pat)
        while p >= 0:
            if not inch(p): yield l[:p] + new + l[p + len(pat):]
            p = body.find(pat, p + 1)
    for m in re.finditer(r'(?<![\w.])\d+(?![\w.])', body):
        if inch(m.start()) or re.search(r'(fuel|_) \+ $', body[:m.start()]): continue
        n = int(m.group())
        for k in ([n + 1, n - 1] if n else [1]): yield l[:m.start()] + str(k) + l[m.end():]
    m = re.search(r'\bif (.*) then', body)
    if m:
        for v in ('true', 'false'): yield l[:m.start(1)] + v + l[m.end(1):]
def code_lines(src):
    out, d, com = [], None, False
    for i, l in enumerate(src.split('\n')):
        if l.lstrip().startswith('/-'): com = True
        if not com:
            m = re.match(r"(?:@\[[^\]]*\] )?(def|instance|abbrev|structure|inductive|theorem|class)\s*([\w'.]*)", l)
            if m: d = (m.group(2) or 'instance') if m.group(1) != 'theorem' else None
            elif l and not l[0].isspace() and l[0] != '|': d = None
            if d and not l.lstrip().startswith('deriving') and not l.lstrip().startswith('termination_by') and not l.lstrip().startswith('decreasing_by'): out.append((d, i))
        if '-/' in l: com = False
    return out
def decl_at(f, n):
    ls = open(f'{S}/{f}').read().split('\n')
    for i in range(min(n, len(ls)) - 1, -1, -1):
        m = re.match(r"(?:@\[[^\]]*\]\s*)*(?:private |protected )*(?:theorem|lemma|def|instance)\s+([\w'.]+)", ls[i])
        if m: return m.group(1)
    return '?'
def build():
    """None, or the first error"""
    p = subprocess.Popen(['lake', 'build'], cwd=S, stdout=subprocess.PIPE, stderr=subprocess.STDOUT, stdin=subprocess.DEVNULL, text=True, start_new_session=True)
    err = None
    for l in p.stdout:
        m = re.match(r'error: (Verif/\S+?\.lean):(\d+):(\d+): (.*)', l)
        if m: err = (m.group(1), int(m.group(2)), m.group(4)); break
    if err: os.killpg(p.pid, signal.SIGKILL)
    p.wait()
    return err or (None if p.returncode == 0 else ('lake', 0, 'failed'))
if __name__ == '__main__':
    OUT, PER = sys.argv[1], int(sys.argv[2])
    setup()
    imports(True)
    e = build()
    if e: sys.exit(f'the copy does not build: {e}')
    print('copy built', flush=True)
    done = {l.split('\t')[0] for l in open(OUT)} if os.path.exists(OUT) else set()
    for f in sys.argv[3:]:
        path = f'Verif/Model/{f}.lean'
        imports(f.startswith('Timed'))
        src = open(f'{V}/{path}').read(); lines = src.split('\n')
        by = {}
        for d, i in code_lines(src):
            for new in edits(lines[i]):
                if new != lines[i] and (i, new) not in by.setdefault(d, []): by[d].append((i, new))
        for d, es in by.items():
            if os.environ.get('ONLY') and d not in os.environ['ONLY'].split(): continue
            random.seed(d); random.shuffle(es)
            k = 0
            for i, new in es:
                if k >= PER: break
                tag = f'{f}:{i + 1} {d}: {lines[i].strip()} => {new.strip()}'
                if tag in done: k += 1; continue
                open(f'{S}/{path}', 'w').write('\n'.join(lines[:i] + [new] + lines[i + 1:]))
                e = build()
                if e and e[0] == path: continue
                k += 1
                r = 'SURVIVED' if e is None else f'caught {e[0]} {decl_at(e[0], e[1])}'
                open(OUT, 'a').write(f'{tag}\t{r}\n')
        open(f'{S}/{path}', 'w').write(src)
