#!/usr/bin/env python3
"""Refute theorems in edited models. Usage: refute.py DIR [id ...]
DIR/ID.json: {"id", "definition", "file", "old", "new", "claim", "bug", "lean"} where lean (or else the file
DIR/ID.lean) is a proof of `theorem refuted : False` from the claim. The project is copied without proofs to /tmp/mut; the refutation
must fail there, and succeed after the edit. It may use no other theorem that was copied without proof."""
import json, os, re, subprocess, sys, glob
sys.path.insert(0, os.path.dirname(os.path.abspath(__file__)))
import statements
S, D = os.environ.get('SCRATCH', '/tmp/mut'), sys.argv[1]
O = D if D.startswith('/tmp') else '/tmp'
def sh(c):
    r = subprocess.run(c, shell=True, cwd=S, capture_output=True, text=True)
    return r.stdout + r.stderr
HEAD = '''import Verif
import Lean
set_option linter.all false
namespace PM2.Props
open Spec Lean Elab
'''
TAIL = '''
end PM2.Props
open Lean in
run_meta do
  let env ← getEnv
  let some c := env.find? `PM2.Props.refuted | throwError "no refutation"
  let mut used : Array Name := #[]
  let mut todo := (c.value? (allowOpaque := true)).get!.getUsedConstants
  let mut seen : NameSet := {}
  while h : todo.size > 0 do
    let n := todo[todo.size - 1]
    todo := todo.pop
    if seen.contains n then continue
    seen := seen.insert n
    let some d := env.find? n | continue
    if (env.getModuleIdxFor? n).isSome then
      let m := env.header.moduleNames[(env.getModuleIdxFor? n).get!.toNat]!
      if d matches .thmInfo .. then
        if (`Verif.Props).isPrefixOf m || (`Verif.Proof).isPrefixOf m then used := used.push n
    else
      if let some v := d.value? (allowOpaque := true) then todo := todo ++ v.getUsedConstants
  logInfo m!"USES {used}"
'''
def module(claim):
    for f in sorted(glob.glob(S + '/Verif/Props/*.lean')):
        if re.search(r'^theorem %s\b' % re.escape(claim), open(f).read(), re.M):
            return 'Verif.Props.' + os.path.basename(f)[:-5]
    sys.exit('no theorem ' + claim)
def run(claim, lean):
    m = module(claim)
    b = sh(f'lake build {m} Verif.Spec.Decide Verif.Spec.SampleCompiler 2>&1 | grep -A8 "error" | head -30')
    if b.strip(): return False, 'BUILD ' + b[:1500]
    head = HEAD.replace('import Verif\n', f'import {m}\nimport Verif.Spec.Decide\nimport Verif.Spec.SampleCompiler\n')
    open(S + '/Refute.lean', 'w').write(head + lean + TAIL)
    o = sh('lake env lean Refute.lean')
    return 'USES' in o and not [l for l in o.split('\n') if re.search(r':\d+: error', l)], o
if __name__ == '__main__':
    statements.main(S)
    ids = sys.argv[2:] or sorted(os.path.basename(f)[:-5] for f in glob.glob(D + '/*.json'))
    seeds = []
    for i in ids:
        s = json.load(open(f'{D}/{i}.json'))
        s['lean'] = '\n'.join(s['lean']) if 'lean' in s else open(f'{D}/{i}.lean').read()
        n = open(os.path.join(S, s['file'])).read().count(s['old'])
        if n != 1: print(i, 'PATTERN COUNT', n); continue
        s['original'] = 'refutes!' if run(s['claim'], s['lean'])[0] else 'holds'
        seeds.append(s)
    for s in seeds:
        f = os.path.join(S, s['file']); orig = open(f).read()
        open(f, 'w').write(orig.replace(s['old'], s['new']))
        try: ok, o = run(s['claim'], s['lean'])
        finally: open(f, 'w').write(orig)
        uses = [l for l in o.split('\n') if 'USES' in l]
        s['refuted'] = ok
        s['uses'] = uses[0].split('USES')[1].strip() if uses else ''
        print(s['id'], s['claim'], 'orig', s['original'], 'mutant refuted' if ok else 'NOT REFUTED', s['uses'], flush=True)
        if not ok: print(o.split('PANIC')[0][:700], flush=True)
        json.dump(s, open(f"{O}/{s['id']}.out", 'w'), ensure_ascii=False)
