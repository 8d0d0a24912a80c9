#!/usr/bin/env python3
"""Writes MANIFEST.json from the table below and checks that each theorem exists in lean/Verif."""
import json, re, glob, os, sys
here = os.path.dirname(os.path.abspath(__file__))
root = os.path.dirname(here)
T = set()
for f in glob.glob(root + '/lean/Verif/**/*.lean', recursive=True):
    for m in re.finditer(r'^theorem ([\w.\']+)', open(f).read(), re.M):
        T.add(m.group(1))
C = []
def claim(p, status, thms, note):
    for t in thms:
        if t not in T: print('missing theorem', t, file=sys.stderr)
    C.append({"property": p, "status": status, "theorems": ["CoolDiff." + t for t in thms], "note": note})
exec(open(here + '/claims.py').read())
json.dump({"claims": C}, open(root + '/MANIFEST.json', 'w'), indent=1, ensure_ascii=False)
print(len(C), 'claims')
