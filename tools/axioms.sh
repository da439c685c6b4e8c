#!/bin/sh
# Prints the axioms of every property theorem into AXIOMS.txt (run after `lake build`).
cd /verif/lean
python3 - > /tmp/axioms.lean <<'PY'
import json
print("import Verif")
for c in json.load(open('/verif/MANIFEST.json'))['claims']:
    for t in c['theorems']:
        print("#print axioms "+t)
PY
lake env lean /tmp/axioms.lean | tr '\n' ' ' | sed "s/ '/\n'/g" | sed 's/  */ /g' > /verif/AXIOMS.txt
echo >> /verif/AXIOMS.txt
grep -c . /verif/AXIOMS.txt
grep -v "propext\|does not depend\|Quot.sound\|Classical.choice" /verif/AXIOMS.txt
grep -n "sorryAx\|ofReduceBool\|trustCompiler" /verif/AXIOMS.txt
