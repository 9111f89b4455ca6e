#!/bin/sh
# Print the axioms of every theorem named in MANIFEST.json, and flag unexpected ones.
cd "$(dirname "$0")/../lean" || exit 1
f=$(mktemp /tmp/axiomsXXXXXX.lean)
python3 - "$f" <<'PY'
import json, sys
m = json.load(open('../MANIFEST.json'))
with open(sys.argv[1], 'w') as o:
    o.write('import Verif\n')
    for c in m['claims']:
        for t in c['theorems']:
            o.write(f'#print axioms {t}\n')
PY
lake env lean "$f" > /tmp/axioms.out 2>&1
tr '\n' ' ' < /tmp/axioms.out | sed "s/'Verif/\n'Verif/g" | grep -vE "does not depend|^ *$" \
  | sed 's/propext//; s/Classical.choice//; s/Quot.sound//' | grep -E "[A-Za-z]+\]|\[[A-Za-z]|error:" && echo UNEXPECTED
grep "error" /tmp/axioms.out
grep -cE "depends on axioms|does not depend on any axioms" /tmp/axioms.out
rm -f "$f"
