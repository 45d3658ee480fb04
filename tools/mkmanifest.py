"""Regenerates MANIFEST.json and lean/Verif.lean from the sources.

Theorems of property Cnn are those named Cnn_* in lean/Verif/Props.  A property is 'partial' when one of its
theorems ends in _partial, 'proved' when it has theorems and none does.  Notes come from tools/notes.json.
"""
import json
import os
import re

root = os.path.dirname(os.path.dirname(os.path.abspath(__file__)))
lean = os.path.join(root, 'lean')
mods = []
for d, _, fs in os.walk(os.path.join(lean, 'Verif')):
    for f in fs:
        if f.endswith('.lean'):
            mods.append(os.path.relpath(os.path.join(d, f), lean)[:-5].replace('/', '.'))
mods.sort()
with open(os.path.join(lean, 'Verif.lean'), 'w') as out:
    out.write(''.join('import %s\n' % m for m in mods))

thms = {}
for m in mods:
    if '.Props.' not in m:
        continue
    ns = []
    for line in open(os.path.join(lean, m.replace('.', '/') + '.lean')):
        a = re.match(r'namespace (\S+)', line)
        if a:
            ns.append(a.group(1))
        a = re.match(r'end (\S+)', line)
        if a and ns and ns[-1] == a.group(1):
            ns.pop()
        a = re.match(r'(?:@\[[^\]]*\] )?theorem (C\d\d+)_(\S+)', line)
        if a:
            thms.setdefault(a.group(1), []).append('.'.join(ns + [a.group(1) + '_' + a.group(2)]))

notes = json.load(open(os.path.join(root, 'tools', 'notes.json')))
claims = []
for line in open(os.path.join(root, 'properties.jsonl')):
    p = json.loads(line)['id']
    t = thms.get(p, [])
    n = notes.get(p, {})
    if n.get('status'):
        status = n['status']
    elif not t:
        continue
    else:
        status = 'partial' if any(x.endswith('_partial') for x in t) else 'proved'
    claims.append({'property': p, 'status': status, 'theorems': t, 'note': n.get('note', '')})
with open(os.path.join(root, 'MANIFEST.json'), 'w') as out:
    json.dump({'claims': claims}, out, indent=1)
    out.write('\n')
print(len(claims), 'claims;', sum(c['status'] == 'proved' for c in claims), 'proved')
