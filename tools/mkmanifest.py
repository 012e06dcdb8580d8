#!/usr/bin/env python3
"""Regenerate MANIFEST.json: theorem names come from the Lean sources (theorems named Cnn_*),
status and notes from tools/status.json."""
import json, os, re, glob
root = os.path.dirname(os.path.dirname(os.path.abspath(__file__)))
thms = {}
for f in sorted(glob.glob(root + '/lean/Verif/**/*.lean', recursive=True)):
    ns = []
    for line in open(f):
        m = re.match(r'namespace\s+(\S+)', line)
        if m: ns.append(m.group(1))
        m = re.match(r'end\s+(\S+)', line)
        if m and ns and ns[-1] == m.group(1): ns.pop()
        m = re.match(r'(?:private |protected )?theorem\s+(C(\d\d+)_\S+)', line)
        if m:
            thms.setdefault('C' + m.group(2), []).append('.'.join(ns + [m.group(1)]))
status = json.load(open(root + '/tools/status.json'))
props = [json.loads(l)['id'] for l in open(root + '/properties.jsonl') if l.strip()]
claims = []
for p in props:
    if p in status and (p in thms or status[p]['status'] == 'not_applicable'):
        claims.append({'property': p, 'status': status[p]['status'], 'theorems': thms.get(p, []), 'note': status[p]['note']})
    else:
        print('no claim for', p, 'theorems:', thms.get(p))
json.dump({'claims': claims}, open(root + '/MANIFEST.json', 'w'), indent=1)
print(len(claims), 'claims', sum(len(c['theorems']) for c in claims), 'theorems')
