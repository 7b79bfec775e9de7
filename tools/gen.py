#!/usr/bin/env python3
"""Regenerates lean/Verif.lean (imports) and MANIFEST.json (claims) from the sources and tools/notes.json."""
import re, json, glob, os
root = os.path.dirname(os.path.dirname(os.path.abspath(__file__)))
files = sorted(glob.glob(root + '/lean/Verif/**/*.lean', recursive=True))
mods = [os.path.relpath(f, root + '/lean')[:-5].replace('/', '.') for f in files]
open(root + '/lean/Verif.lean', 'w').write('\n'.join('import ' + m for m in mods) + '\n')
th = {}
for f in files:
    ns = []
    for line in open(f):
        m = re.match(r'namespace (\S+)', line)
        if m: ns.append(m.group(1))
        m = re.match(r'end (\S+)', line)
        if m and ns and ns[-1] == m.group(1): ns.pop()
        m = re.match(r'(?:open .* in )?theorem (C(\d\d+)_\w+)', line)
        if m: th.setdefault('C' + m.group(2), []).append('.'.join(ns + [m.group(1)]))
notes = json.load(open(root + '/tools/notes.json'))
claims = []
for l in open(root + '/properties.jsonl'):
    p = json.loads(l)['id']
    n = notes.get(p, {})
    if p not in th:
        claims.append({"property": p, "status": n.get("status", "partial"), "theorems": [], "note": n.get("note", "not yet modelled")}); continue
    claims.append({"property": p, "status": n.get("status", "proved"), "theorems": th[p], "note": n.get("note", "")})
json.dump({"claims": claims}, open(root + '/MANIFEST.json', 'w'), indent=1)
print({c: sum(1 for x in claims if x["status"] == c) for c in ("proved", "partial", "not_applicable")})
