#!/usr/bin/env python3
"""Regenerate MANIFEST.json: theorem names are read off Verif/Theorems, status and notes from tools/status.json."""
import json, re, glob, os
root = os.path.dirname(os.path.dirname(os.path.abspath(__file__)))
thms = {}
for f in sorted(glob.glob(root + '/lean/Verif/Theorems/*.lean')):
    ns = []
    for line in open(f):
        m = re.match(r'namespace\s+(\S+)', line)
        if m: ns.append(m.group(1))
        m = re.match(r'end\s+(\S+)', line)
        if m and ns and ns[-1] == m.group(1): ns.pop()
        m = re.match(r'(?:noncomputable )?theorem\s+(C(\d+)\w*)', line)
        if m:
            thms.setdefault('C' + m.group(2), []).append('.'.join(ns + [m.group(1)]))
status = json.load(open(root + '/tools/status.json'))
claims = []
for line in open(root + '/properties.jsonl'):
    pid = json.loads(line)['id']
    st = status.get(pid)
    if st is None or (pid not in thms and st['status'] != 'not_applicable'):
        continue
    claims.append(dict(property=pid, status=st['status'], theorems=thms.get(pid, []), note=st['note']))
json.dump({'claims': claims}, open(root + '/MANIFEST.json', 'w'), indent=1)
print(len(claims), 'claims', sum(len(c['theorems']) for c in claims), 'theorems;', 'no status:', [k for k in thms if k not in status])
