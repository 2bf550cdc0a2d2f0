#!/usr/bin/env python3
"""Writes MANIFEST.json from the table below and checks that every theorem named exists."""
import json, os, re, sys
here = os.path.dirname(os.path.dirname(os.path.abspath(__file__)))
src = ''
for d, _, fs in os.walk(os.path.join(here, 'lean', 'Verif')):
    for f in fs:
        if f.endswith('.lean'):
            src += open(os.path.join(d, f)).read()
names = set(re.findall(r'^(?:@\[[^\]]*\]\s*)?theorem\s+(\S+)', src, re.M))
exec(open(os.path.join(here, 'tools', 'claims.py')).read())
bad = False
claims = []
for pid in sorted(CLAIMS):
    status, thms, note = CLAIMS[pid]
    for t in thms:
        if t not in names:
            print('missing theorem', pid, t); bad = True
    claims.append({'property': pid, 'status': status, 'theorems': ['Zh.' + t for t in thms], 'note': note})
json.dump({'claims': claims}, open(os.path.join(here, 'MANIFEST.json'), 'w'), ensure_ascii=False, indent=1)
for n in sorted(names):
    m = re.match(r'(C\d\d)_', n)
    if m and n not in CLAIMS.get(m.group(1), ('', [], ''))[1]:
        print('not listed:', n)
print(len(claims), 'claims')
sys.exit(bad)
