#!/usr/bin/env python3
"""Make small edits of the lexer (Verif/Model/Parse.lean), run each on a corpus of texts, and write a refutation for those
that change a result. Usage: mutate.py OUTDIR [per-definition] [processes]
The refutations are run with refute.py; the edits that change no result are listed in OUTDIR/same.txt."""
import json, os, random, re, subprocess, sys
from concurrent.futures import ThreadPoolExecutor
V = os.path.join(os.path.dirname(os.path.abspath(__file__)), '..', 'lean')
F = 'Verif/Model/Parse.lean'
OUT = sys.argv[1]; PER = int(sys.argv[2]) if len(sys.argv) > 2 else 3; N = int(sys.argv[3]) if len(sys.argv) > 3 else 2
# definitions that the character-level lexer of the proofs shares with the model
SHARED = {'errorRepr', 'hexVal', 'identRejectPrefixes', 'isDecDigit', 'isHexChar', 'isNonRawable', 'recognizedPunct'}
os.makedirs(OUT, exist_ok=True)
src = open(f'{V}/{F}').read()
CH = re.compile(r"'(\\x[0-9a-f]{2}|\\u[0-9a-f]{4}|\\.|[^\\'\n])'")
def code_lines():
    """(definition, line number) of the lines of code"""
    out, d, com = [], None, False
    for i, l in enumerate(src.split('\n')):
        if l.startswith('/-'): com = True
        if not com:
            m = re.match(r"(?:def|instance)\s*([\w'.]*)", l)
            if m: d = m.group(1)
            elif l and not l[0].isspace(): d = None
            if d: out.append((d, i))
        if '-/' in l: com = False
    return out
def edits(l):
    """(description, new line)"""
    body = l.split(' -- ')[0]
    chars = [m.span() for m in CH.finditer(body)]
    inch = lambda p: any(a <= p < b for a, b in chars)
    for a, b in chars:
        c = body[a:b]
        n = {"'0'": "'1'", "'9'": "'8'", "'f'": "'e'", "'F'": "'E'", "'a'": "'b'", "'A'": "'B'", "'7'": "'8'"}.get(c, "'\\x7f'")
        yield f'{c} becomes {n}', l[:a] + n + l[b:]
    for pat, new in [(' ∧ ', ' ∨ '), (' ∨ ', ' ∧ '), (' && ', ' || '), (' || ', ' && '), (' ≤ ', ' < '), (' < ', ' ≤ '), (' > ', ' ≥ '),
                     (' ≥ ', ' > '), ('.joint', '.alone'), ('.alone', '.joint'), (' true', ' false'), (' false', ' true'), ('!', ''),
                     ('.parenthesis', '.brace'), ('.bracket', '.parenthesis'), ('.brace', '.bracket'), ('.brace', '.parenthesis'), ('some len', 'none')]:
        p = body.find(pat)
        while p >= 0:
            if not inch(p): yield f'{pat.strip()} becomes {new.strip() or "nothing"}', l[:p] + new + l[p + len(pat):]
            p = body.find(pat, p + 1)
    for m in re.finditer(r'(?<![\w.])\d+(?![\w.])', body):
        if inch(m.start()) or re.search(r'(fuel|_) \+ $', body[:m.start()]) or re.match(r'\s*\| ', body) and '=>' not in body[:m.start()]: continue
        n = int(m.group())
        for k in ([n + 1, n - 1] if n else [1]):
            yield f'{n} becomes {k}', l[:m.start()] + str(k) + l[m.end():]
    m = re.search(r'\bif (.*) then', body)
    if m:
        for v in ('true', 'false'): yield f'the condition {m.group(1)} is {v}', l[:m.start(1)] + v + l[m.end(1):]
        if ' = ' in m.group(1) and not re.search('[∧∨]', m.group(1)):
            yield f'the condition {m.group(1)} is negated', l[:m.start(1)] + '¬ (' + m.group(1) + ')' + l[m.end(1):]
random.seed(7)
FR = ['"', "'", '\\', 'x', '7f', 'u{', '}', 'b', 'c', 'r', '#', '/', '*', '!', '\n', '\r\n', '\r', '\t', ' ', '0', '9', '1', '_', 'e', 'E', '+', '-', '.', 'é',
      '﻿', '\0', '(', ')', '[', ']', '{', '}', 'a', 'n', 't', '//', '/*', '*/', '///', '//!', '/**', '/*!', '0x', '0b', '0o', 'F', 'f', 'A', 'g', '　', '́', '=', '~', ';', '\v', 'α', '·', 'À']
BODY = ['\\n', '\\r', '\\t', '\\\\', '\\0', "\\'", '\\"', '\\x00', '\\x01', '\\x0g', '\\x7f', '\\x80', '\\x7g', '\\x9', '\\xff', '\\x', '\\u{0}', '\\u{41}', '\\u{4_1}', '\\u{_1}',
        '\\u{}', '\\u{_}', '\\u{10ffff}', '\\u{110000}', '\\u{0000001}', '\\u{000001}', '\\u{d800}', '\\u41', '\\u{41', '\\\n  ', '\\\r\n \t', '\\\r', '\\\n\r\n', '\\\n\r', '\\q', '\\ ', '\r', '\r\n', '\n', '\0',
        'a', 'é', '\\\n\n\ta', '\\\n', '\\', '#', '"#', '\\\r\na', "\\\n ", '　', 'ab', '\x7f', '\x80', '\\\r\n\r\n', '\\\r\n\r', '\\\n ', '\\xfg', '\\x10', '\\x00a', '\\xFF', '\\u{1F}', '\\u{g}', '\\xaF', '\\x0A', '\\\ra', '\\\n\ra']
def corpus():
    c = ['']
    for pre, q in [('', '"'), ('b', '"'), ('c', '"'), ('', "'"), ('b', "'")]:
        for b in BODY:
            for suf in ('', 'u8', '#', ' a'): c.append(pre + q + b + q + suf)
            c += [pre + q + b, pre + q + b + 'z' + q, pre + q + 'z' + b + q]
    for pre in ('r', 'br', 'cr'):
        for b in BODY:
            for n in (0, 1, 2):
                c.append(pre + '#' * n + '"' + b + '"' + '#' * n); c.append(pre + '#' * n + '"' + b + '"#"' + '#' * n + 's')
        c += [pre + '#' * n + '""' + '#' * m for n in (255, 256) for m in (n - 1, n, n + 1)]
    for a in ('0', '1', '12', '0x', '0xf', '0xg', '0b', '0b1', '0b2', '0o7', '0o8', '0o', '1_', '_1', '0x_', '0x_1', '0xF_', '0b_a', '0bf', '0o9', '0B1', '9', '0xa', '0xA', '0b1f', '10f', '0xag', '0xh'):
        for b in ('', '.', '.0', '..', '.a', '.e', 'e', 'e1', 'e+1', 'e-', 'e--1', 'E1', '.0e', '.0e1', '.0e+', '.0E-1', '.1.2', 'e_1', 'e1_', 'e1+', 'u8', '.0f32', 'é', '.é', '_', '.0_', 'e1f32', '.0e1x', "'", '"', '#', '.0.', '.0.a', 'e1.', '.9', 'e9', 'e0', '._', '.0e_', '.0e9'):
            c += [a + b, '-' + a + b]
    for a in ('a', '_', 'r#a', 'r#_', 'r#self', 'r#Self', 'r#super', 'r#crate', 'r#', 'r##a', 'b', 'br', 'c', 'cr', 'é', "'a", "'a'", "'r#a", "'r#a#", "'r#a'", "'a#", "''", "'", "'é'", "'é", "r#\"", 'b"', "b'", 'br#', 'cr#', 'c"', 'r"', "'ab", "'_", "b'é'", "b'ab'", 'r#ab', 'r#a#'):
        c += [a, a + ' b', a + '+', '(' + a + ')', 'a' + a, a + 'z']
    for a in ('α', '·', 'À', 'aα', 'a·', '·a', 'r#α', 'r#·', "'α", "'α'", "'·", "'·'", "'a·", "'r#α", '1·', '1α', '1.0·', '1e1·', '0x·', '1·a', '1.·', '1.α', '"a"·', '"a"α', "'a'·", "b'a'·", 'b"a"·', 'c"a"α', 'r"a"·', 'br"a"α', 'cr"a"·', '0b1·', '1_·', 'á', '1́'):
        c += [a, a + ' b', '-' + a, '(' + a + ')', 'a' + a, a + 'z']
    HX = '0123456789abcdefABCDEFgG/:@`_ é'
    for pre, q in [('', '"'), ('b', '"'), ('c', '"'), ('', "'"), ('b', "'")]:
        for x in HX: c += [f'{pre}{q}\\x{x}1{q}', f'{pre}{q}\\x1{x}{q}', f'{pre}{q}\\u{{{x}}}{q}', f'{pre}{q}\\u{{1{x}}}{q}', f'{pre}{q}\\u{{{x}0000}}{q}', f'{pre}{q}\\u{{d{x}00}}{q}', f'{pre}{q}\\u{{1{x}ffff}}{q}', f'{pre}{q}\\u{{0{x}FFFF}}{q}', f'{pre}{q}\\u{{00000{x}}}{q}', f'{pre}{q}\\x0{x}{q}', f'{pre}{q}\\x{x}0{q}']
    for x in HX: c += [f'0x{x}', f'0b{x}', f'0o{x}', f'1{x}', f'1.{x}', f'1e{x}', f'1e+{x}', f'0x1{x}', f'0b1{x}', f'0o1{x}', f'{x}']
    c += ['"\\u{D800}"', '"\\u{DFFF}"', '"\\u(41}"', "'\\u(41}'", 'rx"a"x', 'brx"a"x', 'crx"a"x', '1.0e+5 ', '1.0e+5;', '1.0e+_5', '1e+_5', '1e-_5 a', '1.0e+1_0;', '1e+1_0f32', '1e+5+', '1.0e-5-1', '1e+5.0']
    P = "~!@#$%^&*-=+|;:,<.>/?'"
    for x in P:
        c += [x, x + 'a', x + ' ']
        for y in P + '(é ': c += [x + y, x + y + 'a']
    for o in ('/', '//', '///', '////', '//!', '//!!', '/*', '/**', '/***', '/*!', '/**/', '/*!*/', '/***/', '/*/', '/*/**/*/', '/*/*', '/**/*/', '/*! a /*b*/ */', '/** a /*b*/ */', '/**\r*/', '/*!\r\n*/', '/**é*/', '/*! \r*/', '/* \r */', '/*/*/**/*/*/', '/*/**/', '/**/a', '/**a*/b', '/*!a*/b', '/****/', '/*é*/'):
        for b in ('', 'a', ' a\n', ' a\nb', '\r', '\r\n', '\r\nb', 'a\rb\n', '"\\\n', 'é\nb', '\na', '\r\n\r\n', '\n///c', 'a\r\r\nb', '\r\na\r'):
            c += [o + b, 'z ' + o + b, '(' + o + b + ')']
    for d in ('()', '[]', '{}', '(]', '(', ')', '[)', '{)', '(})', '([{}])', '({[a]b}c)d', '[a](b){c}', '(/*ERROR*/)', '(/*ERROR*/)a', '((/*ERROR*/))', '(/*ERROR*/', '[/*ERROR*/]', '}', ']', '[}', '{]', '{', '[', '((', '(a[b'):
        c += [d, ' ' + d, d + ' ', 'a ' + d, d + '+', '﻿' + d]
    for w in ('\t', '\n', '\v', '\f', '\r', ' ', '\u0085', ' ', '‎', '‏', ' ', ' ', '　', '\x08', '\x0e', '\x1f', '﻿', '​', '!', '\x7f', '\x1c'):
        c += [w, 'a' + w + 'b', w + 'a', w + w, '﻿' + w, 'é' + w + 'é', '+' + w + '+']
    for n in range(2500): c.append(''.join(random.choice(FR) for _ in range(random.randint(1, 8))))
    for n in range(800): c.append(random.choice(['"', 'b"', 'c"', 'r"', '/**', '///', '/*', "'", "b'"]) + ''.join(random.choice(FR + BODY) for _ in range(random.randint(1, 4))) + random.choice(['"', '*/', "'", '\n', '']))
    return sorted(set(c), key=lambda s: (len(s), s))
C = corpus()
def lchar(c):
    n = ord(c)
    if c in "'\\": return "'\\" + c + "'"
    if 32 <= n < 127: return f"'{c}'"
    return f"'\\x{n:02x}'" if n < 128 else f"'\\u{n:04x}'"
def llist(s): return '[' + ', '.join(map(lchar, s)) + ']'
json.dump(C, open(OUT + '/corpus.json', 'w'))
EVAL = '''
attribute [local instance] PM2.sampleTables
open PM2 in
#eval show IO Unit from do
  let txt ← IO.FS.readFile "OUT/corpus.txt"
  let base ← IO.FS.readFile "OUT/base.txt"
  let base := (base.splitOn "\\n").toArray
  let mut k := 0
  for l in txt.splitOn "\\n" do
    if l ≠ "" then
      let s : List Char := if l = "-" then [] else (l.splitOn " ").map fun w => Char.ofNat w.toNat!
      let a := fromStrAt s (1 : Nat)
      let b := literalFromStrAt s (1 : Nat)
      let r := s!"{(reprPrec a 0).pretty 1000000}\\t{(reprPrec b 0).pretty 1000000}"
      if base.getD k "" ≠ r then
        IO.println s!"RESULT\\t{k}\\t{r}"
        if base.size > 1 then return
      k := k + 1
  IO.println "END"
'''.replace('OUT', OUT)
open(OUT + '/corpus.txt', 'w').write('\n'.join(' '.join(str(ord(c)) for c in s) or '-' for s in C) + '\n')
def evaluate(text, tag):
    '''the texts with another result than in base.txt, up to the first if there is a base; None if it does not run'''
    f = f'{OUT}/{tag}.tmp.lean'
    open(f, 'w').write(text + EVAL)
    try: r = subprocess.run(['lake', 'env', 'lean', f], cwd=V, capture_output=True, text=True, timeout=120, stdin=subprocess.DEVNULL)
    except subprocess.TimeoutExpired: return None
    finally: os.path.exists(f) and os.remove(f)
    ls = [l.split('\t') for l in r.stdout.split('\n') if l.startswith('RESULT\t')]
    if not ls and 'END' not in r.stdout: return None
    return [(int(l[1]), l[2], l[3]) for l in ls]
def context(lines, i, new):
    """the edit with lines around it until it is unique"""
    for k in range(0, 12):
        for a, b in ((i - k, i), (i, i + k), (i - k, i + k)):
            a = max(a, 0)
            old = '\n'.join(lines[a:b + 1])
            if src.count(old) == 1: return old, '\n'.join(lines[a:i] + [new] + lines[i + 1:b + 1])
INST = 'attribute [local instance] sampleTables sampleTables_lawful\nset_option maxRecDepth 100000\nset_option maxHeartbeats 0\n'
def refutation(base, got):
    """claim, other lemmas, proof"""
    for k, x, y in got:
        a, b = base[k]
        s = C[k]
        if len(s) > 60: break
        S = llist(s)
        if a != x:
            ok = lambda r: r.startswith('PM2.Res.ok')
            if ok(a) or ok(x):
                ts = (a if ok(a) else x)[len('PM2.Res.ok'):].strip()
                return 'C64_grammar', ['PM2.Props.lexed_run'], INST + f'''theorem refuted : False := by
  have h := C64_grammar (sm := SourceMap.init) .init (src := {S}) (by decide +kernel) (ts := {ts})
  rw [lexed_run] at h
  revert h; decide +kernel
''', s
            if x.startswith('PM2.Res.err'):
                e = a[len('PM2.Res.err'):].strip()
                return 'C100_error', ['PM2.P.err_iff'], INST + f'''theorem refuted : False := by
  have h := C100_error (sm := SourceMap.init) .init (src := {S}) (by decide +kernel) (e := {e})
  rw [← P.err_iff (Nat.lt_succ_self _)] at h
  revert h; decide +kernel
''', s
            return 'C01_parse_total', [], INST + f'''theorem refuted : False := by
  have h := C01_parse_total (sm := SourceMap.init) .init (src := {S}) (by decide +kernel)
  have e : (TokenStream.fromStr SourceMap.init {S}).2 = {x.replace('PM2.Res', '')} := by decide +kernel
  rw [e] at h; simp at h
''', s
        if b != y:
            if y.startswith('PM2.Res.ok') and b.startswith('PM2.Res.ok'):
                r = y[len('PM2.Res.ok'):].strip()
                return 'C25_verbatim', [], INST + f'''theorem refuted : False := by
  have h := C25_verbatim (sm := SourceMap.init) .init (src := {S}) (by decide +kernel) (repr := ({r} : List Char × Span).1) (span := ({r} : List Char × Span).2) (by decide +kernel)
  revert h; decide +kernel
''', s
            if y.startswith('PM2.Res.ok') or b.startswith('PM2.Res.ok'):
                return 'C63_literals', ['PM2.litAccepts_lexed'], INST + f'''theorem refuted : False := by
  have h := C63_literals (sm := SourceMap.init) .init (src := {S}) (by decide +kernel)
  rw [← litAccepts_lexed] at h
  ''' + (f'exact absurd (h.mp ⟨{y[len("PM2.Res.ok"):].strip()}, by decide +kernel⟩) (by decide +kernel)' if y.startswith('PM2.Res.ok') else
         f'obtain ⟨l, hl⟩ := h.mpr (by decide +kernel)\n  have e : (Literal.fromStr SourceMap.init {S}).2 = {y.replace("PM2.Res", "")} := by decide +kernel\n  rw [e] at hl; cases hl') + '\n', s
            if y in ('PM2.Res.panic', 'PM2.Res.diverge'):
                return 'C02_literal_total', [], INST + f'''theorem refuted : False := by
  have h := C02_literal_total (sm := SourceMap.init) .init (src := {S}) (by decide +kernel)
  have e : (Literal.fromStr SourceMap.init {S}).2 = {y.replace('PM2.Res', '')} := by decide +kernel
  rw [e] at h; simp at h
''', s
    return None
if __name__ == '__main__':
    open(OUT + '/base.txt', 'w').close()
    base = [(a, b) for _, a, b in evaluate(src, 'base')]; assert len(base) == len(C), 'corpus'
    open(OUT + '/base.txt', 'w').write('\n'.join('\t'.join(b) for b in base) + '\n')
    print(len(C), 'texts', flush=True)
    lines = src.split('\n')
    todo, seen = [], set()
    for d, i in code_lines():
        for what, new in edits(lines[i]):
            if (i, new) not in seen and new != lines[i]: seen.add((i, new)); todo.append((d, i, what, new))
    letter = {(i, new): sum(1 for q in todo[:k + 1] if q[1] == i) for k, (_, i, _, new) in enumerate(todo)}
    if os.environ.get('ONLY'):  # the edits listed in such a file
        keep = {l.rsplit(': ', 1)[0] for l in open(os.environ['ONLY']) if l.endswith('SAME\n')}
        todo = [t for t in todo if f'{t[1] + 1} {t[0]}: {t[2]}' in keep]
    print(len(todo), 'edits', flush=True)
    def work(k):
        d, i, what, new = todo[k]
        return k, evaluate('\n'.join(lines[:i] + [new] + lines[i + 1:]), f'm{k}')
    count, stat = {}, {'no result': 0, 'same': 0, 'changed': 0, 'not refuted': 0}
    with ThreadPoolExecutor(N) as ex, open(OUT + '/same.txt', 'w') as same:
        for k, got in ex.map(work, range(len(todo))):
            d, i, what, new = todo[k]
            if got is None: stat['no result'] += 1; same.write(f'{i + 1} {d}: {what}: does not compile or run\n'); continue
            if not got: stat['same'] += 1; same.write(f'{i + 1} {d}: {what}: SAME\n'); same.flush(); continue
            stat['changed'] += 1
            r, c = refutation(base, got), context(lines, i, new)
            if not r or not c: stat['not refuted'] += 1; same.write(f'{i + 1} {d}: {what}: changed, no refutation\n'); same.flush(); continue
            if d in SHARED or count.get(d, 0) >= PER: continue
            count[d] = count.get(d, 0) + 1
            claim, also, lean, s = r
            j = {'id': f'A{i + 1}{chr(96 + letter[i, new])}', 'definition': d or 'Pos', 'file': F, 'old': c[0], 'new': c[1], 'claim': claim,
                 'bug': f'{what} (differs on {json.dumps(s, ensure_ascii=True)})'}
            if also: j['also'] = also
            json.dump(j, open(f"{OUT}/{j['id']}.json", 'w'), ensure_ascii=False)
            open(f"{OUT}/{j['id']}.lean", 'w').write(lean)
    print(stat)
