#!/usr/bin/env python3
"""Regenerates MANIFEST.json from the theorem names in lean/Verif/Props (names start with the property id)."""
import re,glob,json,collections,os
os.chdir(os.path.dirname(os.path.abspath(__file__)))
th=collections.defaultdict(list)
for f in sorted(glob.glob('lean/Verif/Props/*.lean')):
    s=open(f).read()
    for m in re.finditer(r'^(?:private )?theorem (C\d\d_\w+)',s,re.M):
        th[m.group(1)[:3]].append('Pire.Props.'+m.group(1))
notes=json.load(open('notes.json')) if os.path.exists('notes.json') else {}
claims=[]
for l in open('properties.jsonl'):
    d=json.loads(l); i=d['id']
    n=notes.get(i,{})
    if th[i]:
        st=n.get('status') or ('partial' if any(t.endswith('_partial') for t in th[i]) else 'proved')
        claims.append(dict(property=i,status=st,theorems=th[i],note=n.get('note','')))
    elif n.get('status')=='not_applicable':
        claims.append(dict(property=i,status='not_applicable',theorems=[],note=n['note']))
    else: print('no theorem yet:',i)
json.dump(dict(claims=claims),open('MANIFEST.json','w'),indent=1)
