"""Write the axioms every manifest theorem depends on into DESIGN.md, section 6.

Runs `#print axioms` on each theorem in a scratch file outside the Lake project.
"""
import json, re, subprocess, tempfile, os
root = os.path.dirname(os.path.dirname(os.path.abspath(__file__)))
names = [t for c in json.load(open(f'{root}/MANIFEST.json'))['claims'] for t in c['theorems']]
with tempfile.NamedTemporaryFile('w', suffix='.lean', delete=False) as f:
    f.write('import Verif\n' + ''.join(f'#print axioms {n}\n' for n in names))
out = subprocess.run(['lake', 'env', 'lean', f.name], cwd=f'{root}/lean', capture_output=True, text=True).stdout
os.unlink(f.name)
out = re.sub(r'\s+', ' ', out)
ax = {}
for m in re.finditer(r"'(\S+)' (?:depends on axioms: \[([^\]]*)\]|does not depend on any axioms)", out):
    ax[m.group(1)] = m.group(2) or 'none'
assert set(names) <= set(ax), sorted(set(names) - set(ax))[:5]
groups = {}
for n in names:
    groups.setdefault(ax[n], []).append(n)
allowed = {'propext', 'Classical.choice', 'Quot.sound', 'none'}
assert all(set(g.split(', ')) <= allowed for g in groups), groups.keys()
lines = [f'All {len(names)} theorems of the manifest, as printed by `#print axioms` (regenerate with `python3 tools/axioms.py`).', '']
for g in sorted(groups, key=lambda g: -len(groups[g])):
    lines.append(f'**{g}** ({len(groups[g])}): ' + ', '.join(f'`{n.split(".")[-1]}`' for n in groups[g]))
    lines.append('')
d = open(f'{root}/DESIGN.md').read()
i = d.index('## 6. Axioms per theorem')
open(f'{root}/DESIGN.md', 'w').write(d[:i] + '## 6. Axioms per theorem\n\n' + '\n'.join(lines))
print({g: len(v) for g, v in groups.items()})
