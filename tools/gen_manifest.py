#!/usr/bin/env python3
"""Regenerate MANIFEST.json from the theorem names Cnn_* in lean/Verif and the notes in tools/notes.json.
Status: partial if some theorem of the property ends in _partial or _refuted, or notes say so; else proved."""
import re, json, glob, os
root = os.path.join(os.path.dirname(__file__), '..')
props = [json.loads(l)['id'] for l in open(f'{root}/properties.jsonl')]
notes = json.load(open(f'{root}/tools/notes.json'))
thms = {p: [] for p in props}
for f in sorted(glob.glob(f'{root}/lean/Verif/**/*.lean', recursive=True)):
    ns = []
    for line in open(f):
        m = re.match(r'namespace\s+(\S+)', line)
        if m: ns.append(m.group(1)); continue
        m = re.match(r'section\s*(\S*)\s*$', line)
        if m or line.startswith('noncomputable section'): ns.append(None); continue
        m = re.match(r'end\b\s*(\S*)', line)
        if m and ns: ns.pop(); continue
        m = re.match(r'(?:private |protected |@\[.*?\]\s*)*theorem\s+((C\d\d+)_\w+)', line)
        if m and m.group(2) in thms:
            thms[m.group(2)].append('.'.join([n for n in ns if n] + [m.group(1)]))
claims = []
for p in props:
    t = thms[p]
    n = notes.get(p, {})
    if not t and 'status' not in n: continue
    part = any(x.endswith('_partial') or x.endswith('_refuted') for x in t)
    claims.append({'property': p, 'status': n.get('status', 'partial' if part else 'proved'), 'theorems': t,
                   'note': n.get('note', '')})
json.dump({'claims': claims}, open(f'{root}/MANIFEST.json', 'w'), indent=1)
print(len(claims), 'claims', sum(len(c['theorems']) for c in claims), 'theorems')
