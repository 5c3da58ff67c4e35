#!/bin/bash
# refreshes tools/axioms.txt
python3 - <<'P'
import json
m=json.load(open('/verif/MANIFEST.json')); ths=[]
for c in m['claims']:
    for t in c['theorems']:
        if t not in ths: ths.append(t)
open('/tmp/ax.lean','w').write("import Verif\n"+"".join("#print axioms Props.%s\n"%t for t in ths))
P
cd /verif/lean && lake env lean /tmp/ax.lean | tr '\n' ' ' | sed "s/ 'Props/\n'Props/g" > ../tools/axioms.txt; grep -c . ../tools/axioms.txt
