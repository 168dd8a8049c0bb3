"""Regenerate section 4 of DESIGN.md from the doc comments of the `Cnn_violated_*` theorems."""
import glob, re
rows = []
for f in sorted(glob.glob('lean/Verif/*/Props*.lean')):
    s = open(f).read()
    for m in re.finditer(r'/--((?:(?!-/).)*)-/\s*theorem (C\d+_violated_\w+)', s, re.S):
        doc = ' '.join(m.group(1).replace('**', '').split())
        rows.append((m.group(2), doc))
rows.sort(key=lambda r: (int(re.match(r'C(\d+)', r[0]).group(1)), r[0]))
d = open('DESIGN.md').read()
i = d.index('## 4. '); j = d.index('## 5. ')
body = ('## 4. Disagreements between code and property\n\n'
        'Each is proved as the negation on a concrete witness; the part that holds is proved beside it as a\n'
        '`_partial` theorem or under explicit hypotheses. Generated from the doc comments by `tools/design.py`.\n\n')
body += ''.join(f'* `{n}`: {t}\n' for n, t in rows) + '\n'
open('DESIGN.md', 'w').write(d[:i] + body + d[j:])
