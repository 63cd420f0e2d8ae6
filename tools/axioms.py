"""Writes AXIOMS.md: the axioms each theorem of MANIFEST.json depends on, as reported by Lean."""
import collections, json, pathlib, re, subprocess, tempfile
root = pathlib.Path(__file__).resolve().parent.parent
claims = json.loads((root / 'MANIFEST.json').read_text())['claims']
names = [(c['property'], t) for c in claims for t in c['theorems']]
src = 'import Verif\n' + ''.join(f'#print axioms {t}\n' for _, t in names)
with tempfile.NamedTemporaryFile('w', suffix='.lean', delete=False) as f:
    f.write(src)
out = subprocess.run(['lake', 'env', 'lean', f.name], cwd=root / 'lean', capture_output=True, text=True, check=True).stdout
out = re.sub(r'\n\s+', ' ', out)
by = {}
for line in out.splitlines():
    m = re.match(r"'(.*)' depends on axioms: \[(.*)\]", line)
    if m:
        by[m[1]] = ', '.join(sorted(a.strip() for a in m[2].split(',')))
    m = re.match(r"'(.*)' does not depend on any axioms", line)
    if m:
        by[m[1]] = 'none'
rows = [f'| {p} | `{t}` | {by[t]} |' for p, t in names]
hist = collections.Counter(by[t] for _, t in names)
(root / 'AXIOMS.md').write_text('# Axioms\n\nOutput of `#print axioms` for every theorem of MANIFEST.json (written by tools/axioms.py).\n\n'
    + '\n'.join(f'* {n} theorems: {a}' for a, n in hist.most_common())
    + '\n\n| property | theorem | axioms |\n|---|---|---|\n' + '\n'.join(rows) + '\n')
print(hist)
