#!/bin/sh
# Lists the axioms each theorem of MANIFEST.json depends on. Run after `lake build` in lean/.
cd "$(dirname "$0")/../lean"
python3 - > /tmp/axioms.lean <<'P'
import json
print("import Verif")
for c in json.load(open("../MANIFEST.json"))["claims"]:
    for t in c["theorems"]: print("#print axioms", t)
P
lake env lean /tmp/axioms.lean > /tmp/axioms.txt
python3 - > ../AXIOMS.md <<'P'
import re
s=open("/tmp/axioms.txt").read()
print("# Axioms each theorem depends on\n\nMade by `tools/axioms.sh` from `#print axioms`.\n\n| theorem | axioms |\n|---|---|")
for m in re.finditer(r"'(\S+)' (?:depends on axioms: \[([^\]]*)\]|does not depend on any axioms)",s):
    print("|",m.group(1),"|",re.sub(r"\s+"," ",m.group(2) or "none"),"|")
P
