"""Regenerates MANIFEST.json and lean/Verif.lean. Claims are listed in tools/claims.py."""
import json, pathlib, re, sys
root = pathlib.Path(__file__).resolve().parent.parent
sys.path.insert(0, str(root / 'tools'))
from claims import CLAIMS

src = '\n'.join(p.read_text() for p in (root / 'lean/Verif').rglob('*.lean'))
props = [json.loads(l)['id'] for l in (root / 'properties.jsonl').read_text().splitlines() if l.strip()]
out = []
for pid, status, theorems, note in CLAIMS:
    assert pid in props, pid
    for t in theorems:
        assert re.search(r'theorem %s\b' % re.escape(t.split('.')[-1]), src), t
    out.append({'property': pid, 'status': status,
                'theorems': [f'Arroba.{t}' for t in theorems], 'note': note})
(root / 'MANIFEST.json').write_text(json.dumps({'claims': out}, indent=1) + '\n')
mods = sorted('.'.join(p.relative_to(root / 'lean').with_suffix('').parts)
              for p in (root / 'lean/Verif').rglob('*.lean'))
(root / 'lean/Verif.lean').write_text(''.join(f'import {m}\n' for m in mods))
print('unclaimed:', [p for p in props if p not in {c[0] for c in CLAIMS}])
print('claims', len(out), 'theorems', sum(len(c[2]) for c in CLAIMS))
