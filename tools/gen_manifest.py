#!/usr/bin/env python3
"""Collects the theorems named Cnn_* in lean/Verif/Props and writes MANIFEST.json.
STATUS holds the status and note of each property."""
import re, glob, json, os
root = os.path.dirname(os.path.dirname(os.path.abspath(__file__)))
exec(open(os.path.join(root, 'tools', 'status.py')).read())
thms = {}
for f in sorted(glob.glob(root + '/lean/Verif/Props/*.lean')):
    for m in re.finditer(r'^theorem (C(\d\d+)_\w+)', open(f).read(), re.M):
        thms.setdefault('C' + m.group(2), []).append('Smdiff.' + m.group(1))
claims = []
for line in open(root + '/properties.jsonl'):
    pid = json.loads(line)['id']
    st, note = STATUS.get(pid, ('partial', 'not yet proved'))
    t = thms.get(pid, [])
    if not t and st != 'not_applicable':
        st, note = 'partial', 'no theorem yet: work in progress'
    claims.append({'property': pid, 'status': st, 'theorems': t, 'note': note})
json.dump({'claims': claims}, open(root + '/MANIFEST.json', 'w'), indent=1)
print(len(claims), sum(c['status'] == 'proved' for c in claims), 'proved')
