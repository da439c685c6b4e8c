import json,re,glob,sys
# status overrides & notes
NOTES=json.load(open('/verif/tools/notes.json'))
th={}
for f in sorted(glob.glob('/verif/lean/Verif/**/*.lean',recursive=True)):
    ns=[]
    for line in open(f):
        m=re.match(r'namespace (\S+)',line)
        if m: ns.append(m.group(1))
        m=re.match(r'end (\S+)',line)
        if m and ns and ns[-1]==m.group(1): ns.pop()
        m=re.match(r'(?:private )?theorem (C\d\d+_\S+)',line)
        if m:
            n=m.group(1)
            th.setdefault(n[:n.index('_')],[]).append('.'.join(ns+[n]))
claims=[]
for l in open('/verif/properties.jsonl'):
    p=json.loads(l)['id']
    if p in th:
        ts=th[p]
        st='partial' if any(t.endswith('_partial') or '_fails' in t for t in ts) else 'proved'
        n=NOTES.get(p,{})
        st=n.get('status',st)
        claims.append({"property":p,"status":st,"theorems":ts,"note":n.get('note','')})
    elif p in NOTES and NOTES[p].get('status')=='not_applicable':
        claims.append({"property":p,"status":"not_applicable","theorems":[],"note":NOTES[p]['note']})
json.dump({"claims":claims},open('/verif/MANIFEST.json','w'),indent=1,ensure_ascii=False)
print(len(claims),[ (c['property'],c['status'],len(c['theorems'])) for c in claims])
