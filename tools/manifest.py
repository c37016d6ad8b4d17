"""Regenerate MANIFEST.json from theorem names (Cnn_*) in lean/Verif and the notes below."""
import json, re, glob, os
root = os.path.dirname(os.path.dirname(os.path.abspath(__file__)))
notes = json.load(open(os.path.join(root, 'tools', 'notes.json')))
thms = {}
for f in sorted(glob.glob(os.path.join(root, 'lean/Verif/**/*.lean'), recursive=True)):
    ns = []
    for line in open(f):
        m = re.match(r'namespace (\S+)', line)
        if m: ns.append(m.group(1))
        m = re.match(r'end (\S+)', line)
        if m and ns and ns[-1] == m.group(1): ns.pop()
        m = re.match(r'(?:@\[[^\]]*\]\s*)?theorem (C\d+)(_\S+)', line)
        if m:
            thms.setdefault(m.group(1), []).append('.'.join(ns + [m.group(1) + m.group(2)]))
claims = []
for line in open(os.path.join(root, 'properties.jsonl')):
    i = json.loads(line)['id']
    n = notes.get(i, {})
    ts = thms.get(i, [])
    st = n.get('status', 'proved' if ts and not any(t.endswith('_partial') for t in ts) else 'partial')
    claims.append(dict(property=i, status=st, theorems=ts, note=n.get('note', '' if ts else 'Not modelled yet.')))
json.dump(dict(claims=claims), open(os.path.join(root, 'MANIFEST.json'), 'w'), indent=1)
for c in claims: print(c['property'], c['status'], len(c['theorems']))
