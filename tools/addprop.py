"""Append properties: reads a JSON list of {id,title,statement,quantifier,why_tests_cant,anchors,model,proof,finding?,theorems?,module}."""
import json, sys, re
items = json.load(open(sys.argv[1]))
P='/verif/properties.jsonl'; D='/verif/DESIGN.md'; V='/verif/lean/Verif.lean'
have={json.loads(l)['id'] for l in open(P)}
d=open(D).read(); v=open(V).read()
for it in items:
    if it['id'] not in have:
        with open(P,'a') as f:
            f.write(json.dumps({k:it[k] for k in ['id','title','statement','quantifier','why_tests_cant','anchors']},ensure_ascii=False)+'\n')
    prev='C%02d'%(int(it['id'][1:])-1)
    lines=d.split('\n')
    # table row of section 3: the first block; find last row starting with "| Cnn |" having 3 cells before findings
    idx=[i for i,l in enumerate(lines) if re.match(r'\| C\d+',l)]
    brk=[i for i in idx if not (i+1 in idx)]
    first_end=brk[0]; 
    lines.insert(first_end+1,'| %s | %s | %s |'%(it['id'],it['model'],it['proof']))
    if 'finding' in it:
        idx=[i for i,l in enumerate(lines) if re.match(r'\| C\d+',l)]
        brk=[i for i in idx if not (i+1 in idx)]
        lines.insert(brk[-1]+1,'| %s | %s | %s |'%(it['id'],it['finding'],it.get('theorems','theorems ending in _fails')))
    d='\n'.join(lines)
    imp='import Verif.Props.'+it['module']+'\n'
    if imp not in v: v=v.rstrip('\n')+'\n'+imp
open(D,'w').write(d); open(V,'w').write(v)
