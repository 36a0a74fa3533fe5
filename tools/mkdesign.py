"""Regenerates the list of theorems and axioms at the end of DESIGN.md (needs a built project)."""
import json
import os
import re
import subprocess
import tempfile

ROOT = os.path.abspath(os.path.join(os.path.dirname(__file__), '..'))
MARK = '<!-- generated by tools/mkdesign.py -->\n'
claims = json.load(open(os.path.join(ROOT, 'MANIFEST.json')))['claims']
names = [t for c in claims for t in c['theorems']]
with tempfile.NamedTemporaryFile('w', suffix='.lean') as f:
    f.write('import Verif\n' + ''.join(f'#print axioms {t}\n' for t in names))
    f.flush()
    out = subprocess.run(['lake', 'env', 'lean', f.name], cwd=os.path.join(ROOT, 'lean'),
                         capture_output=True, text=True, check=True).stdout
axioms = {}
for m in re.finditer(r"'(\S+)' (?:depends on axioms: \[([^\]]*)\]|does not depend)", out):
    axioms[m.group(1)] = re.sub(r'\s+', ' ', m.group(2) or 'none')
SHORT = {'propext, Classical.choice, Quot.sound': 'pcq', 'propext, Quot.sound': 'pq', 'propext': 'p',
         'none': 'none'}
rows = ['`p` is `propext`, `c` is `Classical.choice`, `q` is `Quot.sound`. Names are relative to `Arroba`.\n',
        '| property | status | theorems (axioms) | note |', '|---|---|---|---|']
for c in claims:
    ts = ', '.join(f"`{t.removeprefix('Arroba.')}` ({SHORT[axioms[t]]})" for t in c['theorems'])
    rows.append(f"| {c['property']} | {c['status']} | {ts} | {c['note']} |")
path = os.path.join(ROOT, 'DESIGN.md')
text = open(path).read()
open(path, 'w').write(text[:text.index(MARK) + len(MARK)] + '\n' + '\n'.join(rows) + '\n')
