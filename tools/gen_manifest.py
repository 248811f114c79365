"""Writes MANIFEST.json from the theorem names in lean/Verif/Props tools/notes.json and the rows of DESIGN.md section 3."""
import json, re, pathlib
root = pathlib.Path(__file__).resolve().parent.parent
NOTES = json.loads((root / 'tools' / 'notes.json').read_text())
ROWS = {}
for ids, text in re.findall(r'^\| (C\d+[^|]*) \| (.*) \|$', (root / 'DESIGN.md').read_text(), re.M):
    for part in ids.split(', '):
        ends = [int(x[1:]) for x in part.split('..')]
        for k in range(ends[0], ends[-1] + 1): ROWS['C%02d' % k] = text
names = {}
for f in sorted((root / 'lean' / 'Verif' / 'Props').glob('*.lean')):
    ns = []
    for line in f.read_text().splitlines():
        m = re.match(r'namespace (\S+)', line)
        if m: ns.append(m.group(1)); continue
        m = re.match(r'end (\S+)', line)
        if m and ns and ns[-1] == m.group(1): ns.pop(); continue
        m = re.match(r'(?:private )?theorem ((C\d+)_[A-Za-z0-9_\']+)', line)
        if m: names.setdefault(m.group(2), []).append('.'.join(ns + [m.group(1)]))
claims = []
for line in (root / 'properties.jsonl').read_text().splitlines():
    c = json.loads(line)['id']
    th = names.get(c, [])
    n = NOTES.get(c, {})
    if not th and n.get('status') != 'not_applicable':
        print('no theorem yet:', c); continue
    status = n.get('status', 'partial' if any(t.endswith('_partial') for t in th) else 'proved')
    claims.append({'property': c, 'status': status, 'theorems': th, 'note': n.get('note') or ROWS.get(c, '')})
(root / 'MANIFEST.json').write_text(json.dumps({'claims': claims}, indent=1) + '\n')
print(len(claims), 'claims', sum(len(c['theorems']) for c in claims), 'theorems')
