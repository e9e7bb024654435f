#!/usr/bin/env python3
"""Copy finished refutations (ID.out of refute.py) to seeded/refute and log them. Usage: logseeds.py DIR"""
import json, os, sys, glob, re
R = os.path.join(os.path.dirname(os.path.abspath(__file__)), '..', 'seeded')
os.makedirs(R + '/refute', exist_ok=True)
log = R + '/LOG.jsonl'
have = {json.loads(l)['id'] for l in open(log) if l.strip()}
for f in sorted(glob.glob(sys.argv[1] + '/*.out')):
    s = json.load(open(f))
    if s['id'] in have or not s.get('refuted') or s['original'] != 'holds' or not os.path.exists(f[:-4] + '.lean'): continue
    uses = set(re.findall(r'PM2\.[\w.]+', s['uses'])) - {'PM2.sampleTables_lawful', 'PM2.sampleCompiler_lawful'}
    uses = {u for u in uses if '._proof_' not in u} - set(s.get('also', []))
    if uses != {'PM2.Props.' + s['claim']}: print(s['id'], 'other theorems used', uses); continue
    s['lean'] = open(f[:-4] + '.lean').read().split('\n')
    json.dump({k: s[k] for k in ('id', 'definition', 'file', 'old', 'new', 'claim', 'bug', 'also', 'lean') if k in s},
              open(f"{R}/refute/{s['id']}.json", 'w'), ensure_ascii=False, indent=1)
    e = {'id': s['id'], 'definition': s['definition'], 'file': s['file'],
         'edit': {'from': s['old'], 'to': s['new']}, 'bug': s['bug'], 'claim': s['claim'], 'failed': [s['claim']],
         'refutation': f"seeded/refute/{s['id']}.json", 'tightened': s.get('tightened', []),
         'note': 'In the edited model the statement of the claim implies False; the proof uses no other theorem about the model. The same proof fails in the unedited model.'}
    if 'also' in s: e['note'] = e['note'].replace('uses no other theorem about the model', 'uses no other theorem about the edited definition (but ' + ', '.join(s['also']) + ' about unedited ones)')
    open(log, 'a').write(json.dumps(e, ensure_ascii=False) + '\n'); print('logged', s['id'])
