#!/bin/bash
# Regenerates AXIOMS.md: the axioms of every theorem named in MANIFEST.json.
cd "$(dirname "$0")/../lean" || exit 1
T=$(mktemp -d)
python3 - > $T/Ax.lean <<'P'
import json
print("import Verif")
for c in json.load(open('../MANIFEST.json'))['claims']:
    for t in c['theorems']: print("#print axioms "+t)
P
lake env lean $T/Ax.lean > $T/out 2>&1
python3 - $T/out > ../AXIOMS.md <<'P'
import re,sys
s=re.sub(r'\n\s+',' ',open(sys.argv[1]).read())
print("# Axioms of each manifest theorem (`#print axioms`)\n\n| theorem | axioms |\n|---|---|")
for l in s.splitlines():
    m=re.match(r"'(.*)' depends on axioms: \[(.*)\]",l)
    n=re.match(r"'(.*)' does not depend on any axioms",l)
    if m: print("| `%s` | %s |"%m.groups())
    elif n: print("| `%s` | none |"%n.group(1))
    else: print("| ??? | %s |"%l)
P
rm -r $T
