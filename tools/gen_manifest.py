#!/usr/bin/env python3
"""Regenerate lean/Verif.lean (imports) and MANIFEST.json from the sources.

Theorems named Cxx_* in lean/Verif/Props/*.lean are grouped by property; status and note come from
tools/status.json ({"C01": ["proved", "note"], ...}).
"""
import glob, json, os, re
root = os.path.join(os.path.dirname(os.path.abspath(__file__)), '..')
lean = os.path.join(root, 'lean')
mods = sorted(os.path.relpath(p, lean)[:-5].replace('/', '.')
              for p in glob.glob(lean + '/Verif/**/*.lean', recursive=True))
with open(lean + '/Verif.lean', 'w') as f:
    f.write(''.join(f'import {m}\n' for m in mods))
thms = {}
for p in sorted(glob.glob(lean + '/Verif/Props/*.lean')):
    src = open(p).read()
    for m in re.finditer(r'^theorem (C\d\d)_(\w+)', src, re.M):
        thms.setdefault(m.group(1), []).append(f'Verif.Props.{m.group(1)}_{m.group(2)}')
status = json.load(open(root + '/tools/status.json'))
props = [json.loads(l)['id'] for l in open(root + '/properties.jsonl')]
claims = []
for pid in props:
    if pid not in status:
        if pid in thms:
            print('no status for', pid)
        continue
    st, note = status[pid]
    if st != 'not_applicable' and pid not in thms:
        print('no theorem for', pid)
        continue
    claims.append(dict(property=pid, status=st, theorems=thms.get(pid, []), note=note))
json.dump({"claims": claims}, open(root + '/MANIFEST.json', 'w'), indent=1)
print(len(claims), 'claims;', len(props) - len(claims), 'open')
