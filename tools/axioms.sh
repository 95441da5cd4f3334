#!/bin/bash
# Writes AXIOMS.txt: the axioms each theorem of MANIFEST.json depends on. Run after `lake build`.
cd "$(dirname "$0")/../lean" || exit 1
T=$(mktemp -d)
python3 -c '
import json
print("import Verif")
for c in json.load(open("../MANIFEST.json"))["claims"]:
    for t in c["theorems"]: print("#print axioms", t)' > "$T/Ax.lean"
lake env lean "$T/Ax.lean" | tr -d "'" > ../AXIOMS.txt
rm -r "$T"
sed 's/^[^ ]* //' ../AXIOMS.txt | sort | uniq -c
