#!/usr/bin/env python3
"""Writes MANIFEST.json from the theorem names in lean/Verif/Props and tools/notes.json."""
import json, re, glob, os
root = os.path.dirname(os.path.dirname(os.path.abspath(__file__)))
names = {}
for f in sorted(glob.glob(root + '/lean/Verif/Props/*.lean')):
    src = open(f).read()
    ns = re.search(r'^namespace (\S+)', src, re.M).group(1)
    for m in re.finditer(r'^(?:noncomputable )?(?:theorem|def|lemma) (C(\d\d+)_\S+)', src, re.M):
        if src[m.start():].startswith(('def', 'noncomputable def')):
            continue
        names.setdefault('C' + m.group(2), []).append(ns + '.' + m.group(1))
notes = json.load(open(root + '/tools/notes.json'))
claims = []
for line in open(root + '/properties.jsonl'):
    pid = json.loads(line)['id']
    if pid not in notes:
        continue
    st, note = notes[pid]
    claims.append({'property': pid, 'status': st, 'theorems': names.get(pid, []), 'note': note})
json.dump({'claims': claims}, open(root + '/MANIFEST.json', 'w'), indent=1)
for c in claims:
    print(c['property'], c['status'], len(c['theorems']))
