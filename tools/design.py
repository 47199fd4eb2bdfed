"""Generates DESIGN.md from design_head.md, findings.json, areas.json, properties.jsonl and MANIFEST.json."""
import json,os
R=os.path.dirname(os.path.dirname(os.path.abspath(__file__)))
T=os.path.join(R,'tools')
man={c['property']:c for c in json.load(open(os.path.join(R,'MANIFEST.json')))['claims']}
props=[json.loads(l) for l in open(os.path.join(R,'properties.jsonl')) if l.strip()]
find=json.load(open(os.path.join(T,'findings.json')))
areas=json.load(open(os.path.join(T,'areas.json')))
head=open(os.path.join(T,'design_head.md')).read()
fs='\n'.join(f'* **{k}** {v}' for k,v in sorted(find.items()))
rows=['| id | property | model | proof method | status | theorems |','|---|---|---|---|---|---|']
for p in props:
    c=man[p['id']]; a=areas[p['id']]
    ths=', '.join('`%s`'%t.split('.')[-1] for t in c['theorems'])
    rows.append(f"| {p['id']} | {p['title']} | {a[0]} | {a[1]} | {c['status']} | {ths} |")
    
open(os.path.join(R,'DESIGN.md'),'w').write(head.replace('@@FINDINGS@@',fs).replace('@@TABLE@@','\n'.join(rows)))
missing=[k for k,c in man.items() if any('refuted' in t for t in c['theorems']) and k not in find]
if missing: print('no finding text:',missing)
