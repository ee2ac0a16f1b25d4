"""Writes /verif/AXIOMS.md: the axioms each theorem named in MANIFEST.json depends on (run after `lake build`)."""
import json, re, subprocess, tempfile
d = json.load(open('/verif/MANIFEST.json'))
names = []
for c in d['claims']:
    for t in c['theorems']:
        if t not in names:
            names.append(t)
with tempfile.NamedTemporaryFile('w', suffix='.lean', delete=False) as f:
    f.write("import Verif\n" + "".join(f"#print axioms {t}\n" for t in names))
out = subprocess.run(['lake', 'env', 'lean', f.name], cwd='/verif/lean', capture_output=True, text=True).stdout
out = re.sub(r'\s*\n\s+', ' ', out)
ax = {}
for l in out.splitlines():
    m = re.match(r"'([^']*(?:'[^' ]*)?)' depends on axioms: \[(.*)\]", l)
    if m:
        ax[m[1]] = m[2]
        continue
    m = re.match(r"'(.*)' does not depend on any axioms", l)
    if m:
        ax[m[1]] = 'none'
with open('/verif/AXIOMS.md', 'w') as g:
    g.write("# Axioms of every theorem named in MANIFEST.json\n\n(`#print axioms`, written by tools/gen_axioms.py)\n\n| Property | Theorem | Axioms |\n|---|---|---|\n")
    for c in d['claims']:
        for t in c['theorems']:
            g.write(f"| {c['property']} | {t} | {ax[t]} |\n")
print(len(ax), set(ax.values()))
