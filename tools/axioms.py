#!/usr/bin/env python3
"""Prints the axioms of every theorem named in MANIFEST.json (writes AXIOMS.txt)."""
import json, os, re, subprocess, tempfile, collections
root = os.path.dirname(os.path.dirname(os.path.abspath(__file__)))
names = [t for c in json.load(open(root + '/MANIFEST.json'))['claims'] for t in c['theorems']]
src = 'import Verif\n' + ''.join('#print axioms %s\n' % n for n in names)
with tempfile.TemporaryDirectory() as d:
    f = d + '/ax.lean'
    open(f, 'w').write(src)
    r = subprocess.run(['lake', 'env', 'lean', f], cwd=root + '/lean', capture_output=True, text=True)
out = r.stdout + r.stderr
flat = re.sub(r'\s*\n\s+', ' ', out)
by = collections.defaultdict(list)
for m in re.finditer(r"'([^']+(?:'[^']*)?)' (does not depend on any axioms|depends on axioms: \[([^\]]*)\])", flat):
    by[m.group(3) or 'none'].append(m.group(1))
with open(root + '/AXIOMS.txt', 'w') as g:
    for k in sorted(by):
        g.write('%s (%d theorems)\n' % (k, len(by[k])))
        for n in by[k]:
            g.write('  %s\n' % n)
print({k: len(v) for k, v in by.items()}, len(names), 'errors' if ': error' in out else 'no errors')
