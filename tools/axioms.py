"""Print, for every theorem of MANIFEST.json, the axioms it depends on, grouped (Markdown on stdout)."""
import json, subprocess, pathlib, re, collections
root = pathlib.Path(__file__).resolve().parent.parent
names = [t for c in json.load(open(root / 'MANIFEST.json'))['claims'] for t in c['theorems']]
src = 'import Verif\n' + ''.join(f'#print axioms {n}\n' for n in names)
tmp = pathlib.Path('/tmp/axioms_check.lean')
tmp.write_text(src)
out = subprocess.run(['lake', 'env', 'lean', str(tmp)], cwd=root / 'lean', capture_output=True, text=True).stdout
groups = collections.defaultdict(list)
for m in re.finditer(r"'([^']+)' (does not depend on any axioms|depends on axioms: \[([^\]]*)\])", out):
    ax = tuple(sorted(a.strip() for a in (m.group(3) or '').split(',') if a.strip()))
    groups[ax].append(m.group(1).split('.')[-1])
for ax, ts in sorted(groups.items()):
    print(f"* {', '.join('`%s`' % a for a in ax) if ax else 'no axioms'}: {len(ts)} theorems" + ('' if len(ax) == 3 else ': ' + ', '.join(ts)))
print(f'\nTotal {sum(map(len, groups.values()))} of {len(names)}.')
