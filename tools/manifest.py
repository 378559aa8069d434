#!/usr/bin/env python3
"""Write MANIFEST.json from the property tags in the theorem doc comments of lean/Verif/Props.

A doc comment starting with tags ("C01", "C05, C41 ...") immediately before a theorem assigns the
theorem to these properties.  Status and notes come from tools/status.json.
"""
import glob, json, os, re
root = os.path.dirname(os.path.dirname(os.path.abspath(__file__)))
claims = {}
for f in sorted(glob.glob(root + '/lean/Verif/Props/**/*.lean', recursive=True)):
    ns, doc, indoc = [], '', False
    for line in open(f):
        if indoc:
            doc += line
            if '-/' in line: indoc = False
            continue
        if line.startswith('/--'):
            doc = line
            indoc = '-/' not in line
            continue
        m = re.match(r'namespace (\S+)', line)
        if m: ns.append(m.group(1)); continue
        m = re.match(r'end (\S+)', line)
        if m and ns: ns.pop(); continue
        m = re.match(r'(?:@\[[^\]]*\] )?theorem (\S+)', line)
        if m:
            t = re.match(r'/--\s*((?:C\d\d,?\s*)+)', doc)
            if t:
                for c in re.findall(r'C\d\d', t.group(1)):
                    claims.setdefault(c, []).append('.'.join(ns + [m.group(1)]))
            doc = ''
        elif line.strip() and not line.startswith(('set_option', 'open', 'omit', 'include')):
            doc = ''
st = json.load(open(root + '/tools/status.json'))
out = []
for l in open(root + '/properties.jsonl'):
    c = json.loads(l)['id']
    s = st.get(c, {})
    th = claims.get(c, [])
    if not th and s.get('status') != 'not_applicable': continue
    out.append({'property': c, 'status': s.get('status', 'partial'), 'theorems': th,
                'note': s.get('note', '')})
json.dump({'claims': out}, open(root + '/MANIFEST.json', 'w'), indent=1)
open(root + '/MANIFEST.json', 'a').write('\n')
print({c['property']: (c['status'], len(c['theorems'])) for c in out})
