#!/usr/bin/env python3
"""Write AXIOMS.md: the axioms of every theorem named in MANIFEST.json (needs a built tree)."""
import json, os, re, subprocess, tempfile, collections
here = os.path.dirname(os.path.abspath(__file__))
root = os.path.join(here, '..')
thms = []
for c in json.load(open(os.path.join(root, 'MANIFEST.json')))['claims']:
    for t in c['theorems']:
        if t not in thms:
            thms.append(t)
with tempfile.NamedTemporaryFile('w', suffix='.lean', delete=False) as f:
    f.write('import Verif\n' + ''.join('#print axioms %s\n' % t for t in thms))
out = subprocess.run(['lake', 'env', 'lean', f.name], cwd=os.path.join(root, 'lean'),
                     capture_output=True, text=True).stdout
os.unlink(f.name)
found = {}
for name, rest in re.findall(r"'([^']+)' (depends on axioms: \[[^\]]*\]|does not depend on any axioms)", out):
    ax = re.findall(r'\[([^\]]*)\]', rest)
    found[name] = ', '.join(re.split(r',\s*', ax[0])) if ax else 'none'
missing = [t for t in thms if t not in found]
assert not missing, missing
groups = collections.OrderedDict()
for t in thms:
    groups.setdefault(found[t], []).append(t)
with open(os.path.join(root, 'AXIOMS.md'), 'w') as f:
    f.write('# Axioms of the theorems of MANIFEST.json\n\nOutput of `#print axioms`, grouped'
            ' (written by `tools/mkaxioms.py`).\n')
    for k, v in groups.items():
        f.write('\n## %s (%d)\n\n' % (k, len(v)))
        f.write(''.join('* `%s`\n' % t for t in v))
print({k: len(v) for k, v in groups.items()})
