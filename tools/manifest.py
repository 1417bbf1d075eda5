"""Regenerates MANIFEST.json and lean/Verif.lean from tools/claims.txt.

claims.txt: one claim per paragraph:
  C01 proved
  theorem names, space separated (may span lines, each starting with two spaces)
  # note
"""
import json, os, re
root = os.path.dirname(os.path.dirname(os.path.abspath(__file__)))
claims = []
for para in open(os.path.join(root, 'tools', 'claims.txt')).read().split('\n\n'):
    lines = [l for l in para.splitlines() if l.strip()]
    if not lines:
        continue
    pid, status = lines[0].split()
    thms, note = [], []
    for l in lines[1:]:
        if l.startswith('#'):
            note.append(l[1:].strip())
        else:
            thms += l.split()
    claims.append({"property": pid, "status": status, "theorems": ['Oranssi.' + t for t in thms], "note": ' '.join(note)})
with open(os.path.join(root, 'MANIFEST.json'), 'w') as f:
    json.dump({"claims": claims}, f, indent=1, ensure_ascii=False)
    f.write('\n')
mods = []
for d, _, fs in os.walk(os.path.join(root, 'lean', 'Verif')):
    for fn in fs:
        if fn.endswith('.lean'):
            rel = os.path.relpath(os.path.join(d, fn), os.path.join(root, 'lean'))
            mods.append(rel[:-5].replace(os.sep, '.'))
with open(os.path.join(root, 'lean', 'Verif.lean'), 'w') as f:
    for m in sorted(mods):
        f.write(f'import {m}\n')
# sanity: every name is declared somewhere
src = ''
for m in mods:
    src += open(os.path.join(root, 'lean', m.replace('.', os.sep) + '.lean')).read()
decl = set(re.findall(r'theorem\s+([\w\.]+)', src))
for c in claims:
    for t in c['theorems']:
        if t.split('Oranssi.')[1] not in decl:
            print('MISSING', t)
print(len(claims), 'claims', sum(len(c['theorems']) for c in claims), 'theorems')
