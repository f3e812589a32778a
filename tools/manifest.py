"""Regenerates MANIFEST.json and lean/Verif.lean from the theorem names in lean/Verif/Props."""
import json, re, glob, os
root = '/verif'
notes = json.load(open(root + '/tools/notes.json'))
ids = [json.loads(l)['id'] for l in open(root + '/properties.jsonl')]
th = {i: [] for i in ids}
for f in sorted(glob.glob(root + '/lean/Verif/Props/*.lean')):
    ns = []
    for line in open(f):
        m = re.match(r'\s*(?:noncomputable )?(namespace|section|end)\b\s*(\S*)', line)
        if m:
            if m[1] in ('namespace', 'section'): ns.append((m[1], m[2]))
            elif ns: ns.pop()
            continue
        m = re.match(r'\s*(?:protected |private )?theorem (C\d\d\d?)(_\S+)', line)
        if m and m[1] in th:
            th[m[1]].append('.'.join([n for k, n in ns if k == 'namespace'] + [m[1] + m[2]]))
claims = []
for i in ids:
    n = notes.get(i, {})
    st = n.get('status', 'proved' if th[i] else None)
    if st is None: continue
    claims.append({'property': i, 'status': st, 'theorems': th[i], 'note': n.get('note', '')})
json.dump({'claims': claims}, open(root + '/MANIFEST.json', 'w'), indent=1, ensure_ascii=False)
mods = sorted(glob.glob(root + '/lean/Verif/*/*.lean'))
with open(root + '/lean/Verif.lean', 'w') as o:
    for m in mods:
        o.write('import Verif.' + m.split('/')[-2] + '.' + os.path.basename(m)[:-5] + '\n')
print({c['property']: (c['status'], len(c['theorems'])) for c in claims})
print('missing', [i for i in ids if i not in [c['property'] for c in claims]])
