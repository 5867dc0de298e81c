#!/bin/sh
# Regenerate /verif/AXIOMS.txt: the axioms each manifest theorem depends on (needs a built lean/).
cd /verif/lean || exit 1
python3 - <<'P'
import json
names=[]
for c in json.load(open('/verif/MANIFEST.json'))['claims']:
    for t in c['theorems']:
        if t not in names: names.append(t)
open('/tmp/axioms.lean','w').write("import Verif\n"+"\n".join("#print axioms "+t for t in names)+"\n")
P
lake env lean /tmp/axioms.lean | tr '\n' ' ' | sed "s/'Arx\./\n/g" | sed "s/' depends on axioms://; s/' does not/ does not/" | sed 's/ *$//' | grep . > /verif/AXIOMS.txt
