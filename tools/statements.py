#!/usr/bin/env python3
"""Copy the Lean project to a scratch directory with the proofs removed: every theorem keeps its statement
and gets `sorry`, examples are dropped. In the copy the model can be edited, and a refutation
(a proof of False from a theorem of the manifest) shows that the theorem does not hold of the edited model.
Usage: statements.py SCRATCH"""
import os, re, shutil, sys
V = os.path.join(os.path.dirname(os.path.abspath(__file__)), '..', 'lean')
START = re.compile(r'^(?:@\[[^\]]*\]\s*)*(?:private |protected |noncomputable |scoped |local )*'
                   r'(theorem|lemma|example|def|abbrev|instance|inductive|structure|class|mutual|end|namespace|section|open|variable|'
                   r'attribute|omit|include|macro|syntax|notation|infix|infixl|infixr|set_option|universe|deriving|/--|/-!|termination_by)\b|^/--|^/-!|^/-')
def decls(src):
    """split into top-level pieces"""
    lines, out, cur, i = src.split('\n'), [], [], 0
    incomment = False
    for l in lines:
        if not incomment and l and not l[0].isspace() and START.match(l) and not l.startswith('termination_by'):
            if cur: out.append('\n'.join(cur))
            cur = []
        if not incomment and l.startswith('/-') and '-/' not in l: incomment = True
        elif incomment and '-/' in l:
            incomment = False
        cur.append(l)
        if l.startswith('/-') and '-/' in l or (not incomment and l.rstrip().endswith('-/') and cur[0].startswith('/-')):
            out.append('\n'.join(cur)); cur = []
    if cur: out.append('\n'.join(cur))
    return out
def cut(d):
    """the end of the statement of a theorem"""
    depth, i = 0, 0
    while i < len(d):
        c = d[i]
        if d.startswith('--', i):
            while i < len(d) and d[i] != '\n': i += 1
            continue
        if c == '"':
            i += 1
            while d[i] != '"':
                i += 2 if d[i] == '\\' else 1
        elif c == "'" and (m := re.match(r"'(\\x[0-9a-fA-F]{2}|\\u[0-9a-fA-F]{4}|\\.|[^\\'\n])'", d[i:])) and not (d[i-1].isalnum() or d[i-1] in "_'₀₁₂₃₄"):
            i += m.end(); continue
        elif c in '([{⟨': depth += 1
        elif c in ')]}⟩': depth -= 1
        elif depth == 0 and (d.startswith(':=', i) and not re.search(r'\blet \S+( : [^\n]*)? $', d[:i]) or re.match(r'\swhere\n', d[i:])): return i
        elif depth == 0 and c == '\n' and re.match(r'\n  \| ', d[i:]) and not re.search(r'\b(match|with)\b[^\n]*$', d[:i]) :
            return i
        i += 1
    return None
def strip(src):
    out = []
    for d in decls(src):
        m = re.match(r'(?:@\[[^\]]*\]\s*)*(?:private |protected |noncomputable )*(theorem|lemma|example)\b', d)
        if m and m.group(1) == 'example':
            if out and out[-1].startswith('/--'): out.pop()
            continue
        if m:
            k = cut(d)
            if k is None: raise Exception('no end: ' + d[:200])
            d = d[:k].rstrip() + ' := by sorry\n'
            d = d.replace('private theorem', 'theorem')
        out.append(d)
    return '\n'.join(out)
def main(S):
    if os.path.isdir(S + '/Verif'): shutil.rmtree(S + '/Verif')
    os.makedirs(S, exist_ok=True)
    for f in ['lakefile.toml', 'lake-manifest.json', 'lean-toolchain', 'Verif.lean']:
        if os.path.exists(V + '/' + f): shutil.copy(V + '/' + f, S)
    for d, _, fs in os.walk(V + '/Verif'):
        for f in fs:
            p = os.path.join(d, f); q = os.path.join(S, os.path.relpath(p, V))
            os.makedirs(os.path.dirname(q), exist_ok=True)
            src = open(p, encoding='utf-8').read()
            if '/Proof/' in p or '/Props/' in p: src = strip(src)
            open(q, 'w', encoding='utf-8').write(src)
if __name__ == '__main__': main(sys.argv[1])
