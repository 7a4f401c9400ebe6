#!/bin/sh
# Prints the axioms that the theorems of MANIFEST.json depend on, and fails if there are others than the three standard ones.
# To be run after `lake build` in lean/.
set -e
cd "$(dirname "$0")/.."
f=$(mktemp --suffix=.lean)
trap 'rm -f "$f"' EXIT
python3 - > "$f" <<'P'
import json
print("import Verif")
for c in json.load(open("MANIFEST.json"))["claims"]:
    for t in c["theorems"]:
        print("#print axioms", t)
P
cd lean
lake env lean "$f" | python3 -c '
import re, sys
text = sys.stdin.read()
print(text)
axioms = {a.strip() for l in re.findall(r"axioms: \[(.*?)\]", text, re.S) for a in l.split(",")}
print("all axioms:", sorted(axioms))
sys.exit(bool(axioms - {"propext", "Classical.choice", "Quot.sound"}) or "error" in text)
'
