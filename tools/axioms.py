"""Regenerate section 6 of DESIGN.md: the axioms of every theorem in MANIFEST.json.

Needs a complete build; runs `#print axioms` through `lake env lean`.
"""
import json, os, re, subprocess, tempfile

root = os.path.dirname(os.path.dirname(os.path.abspath(__file__)))
names = [t for c in json.load(open(os.path.join(root, 'MANIFEST.json')))['claims'] for t in c['theorems']]
src = 'import Verif\n' + ''.join('#print axioms %s\n' % n for n in names)
with tempfile.NamedTemporaryFile('w', suffix='.lean', delete=False) as f:
    f.write(src)
out = subprocess.run(['lake', 'env', 'lean', f.name], cwd=os.path.join(root, 'lean'), capture_output=True, text=True).stdout
os.unlink(f.name)
out = re.sub(r'\s+', ' ', out)
groups = {}
for n in names:
    m = re.search(r"'%s' (does not depend on any axioms|depends on axioms: \[([^\]]*)\])" % re.escape(n), out)
    assert m, n
    ax = tuple(sorted(a.strip() for a in m.group(2).split(','))) if m.group(2) else ()
    groups.setdefault(ax, []).append(n.split('.')[-1])
text = '## 6. Axioms of each theorem\n\nGenerated by `tools/axioms.py` from `#print axioms`.\n'
for ax in sorted(groups, key=lambda a: (len(a), a)):
    text += '\n**%s** (%d):\n%s\n' % (', '.join(ax) if ax else 'No axioms', len(groups[ax]),
        ', '.join('`%s`' % n for n in groups[ax]))
p = os.path.join(root, 'DESIGN.md')
s = open(p).read()
i = s.find('## 6. Axioms')
s = (s if i < 0 else s[:i]).rstrip() + '\n\n' + text
open(p, 'w').write(s)
print({k: len(v) for k, v in groups.items()})
