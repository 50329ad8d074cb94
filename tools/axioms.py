"""Write AXIOMS.md: the axioms each theorem of MANIFEST.json depends on (`#print axioms`).

usage: axioms.py            (run in /verif after `lake build` in /verif/lean)
"""
import json, re, subprocess, tempfile, os

root = os.path.dirname(os.path.dirname(os.path.abspath(__file__)))
names = [t for c in json.load(open(f'{root}/MANIFEST.json'))['claims'] for t in c['theorems']]
with tempfile.TemporaryDirectory() as d:
    f = f'{d}/ax.lean'
    open(f, 'w').write('import Verif\n' + '\n'.join(f'#print axioms {n}' for n in names))
    out = subprocess.run(['lake', 'env', 'lean', f], cwd=f'{root}/lean', capture_output=True, text=True).stdout
ax = {n: a.replace('\n', ' ') for n, a in re.findall(r"'([^ ]*)' depends on axioms: \[([^\]]*)\]", out)}
ax.update({n: 'none' for n in re.findall(r"'([^ ]*)' does not depend on any axioms", out)})
std = {'propext', 'Classical.choice', 'Quot.sound', 'none'}
assert all(n in ax for n in names), [n for n in names if n not in ax]
assert all(set(re.split(r',\s*', a)) <= std for a in ax.values())
groups = {}
for n in names:
    groups.setdefault(', '.join(re.split(r',\s*', ax[n])), []).append(n.split('.')[-1])
with open(f'{root}/AXIOMS.md', 'w') as o:
    o.write('# Axioms per theorem\n\nGenerated by `tools/axioms.py` from `#print axioms`.\n')
    for g in sorted(groups, key=lambda g: -len(groups[g])):
        o.write(f'\n## {g} ({len(groups[g])})\n\n' + ', '.join(f'`{n}`' for n in groups[g]) + '\n')
print({g: len(v) for g, v in groups.items()})
