"""Write DESIGN.md, section 5, from the partial claims of the manifest."""
import json, os
root = os.path.dirname(os.path.dirname(os.path.abspath(__file__)))
props = {d['id']: d for d in map(json.loads, open(f'{root}/properties.jsonl'))}
lines = ['Every entry is a property the code does not satisfy in full. Theorems ending in `_partial` prove what does hold; the others named',
         'here are proved negations with concrete witnesses or exact descriptions (regenerate with `python3 tools/disagreements.py`).', '']
for c in json.load(open(f'{root}/MANIFEST.json'))['claims']:
    if c['status'] == 'proved':
        continue
    p = props[c['property']]
    lines.append(f"* **{c['property']} {p['title']}.** {c['note']}  ")
    lines.append('  Theorems: ' + ', '.join(f"`{t.split('.')[-1]}`" for t in c['theorems']) + '.')
lines += ['', 'Restrictions of properties that are proved, with the theorem that shows why the restriction is there:', '']
for c in json.load(open(f'{root}/MANIFEST.json'))['claims']:
    if c['status'] == 'proved' and c['note'] and 'C' + c['property'][1:] in c['note'] and '_' in c['note']:
        lines.append(f"* **{c['property']}** {c['note']}")
d = open(f'{root}/DESIGN.md').read()
i, j = d.index('## 5. Where'), d.index('## 6. Axioms')
open(f'{root}/DESIGN.md', 'w').write(d[:i] + '## 5. Where the code disagrees with the property\n\n' + '\n'.join(lines) + '\n\n' + d[j:])
