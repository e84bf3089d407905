#!/bin/sh
# Prints every theorem of MANIFEST.json that depends on an axiom other than propext,
# Classical.choice and Quot.sound, and every forbidden word in the sources. Silent when all is well.
# Run `lake build` in lean/ first.
cd "$(dirname "$0")/../lean" || exit 1
f=$(mktemp /tmp/auditXXXXXX.lean)
{ echo "import Verif"; grep -o '"Cgpm\.Props\.[^"]*"' ../MANIFEST.json | tr -d '"' | sed 's/^/#print axioms /'; } > "$f"
lake env lean "$f" | tr '\n' ' ' | sed "s/'Cgpm/\n'Cgpm/g" | tr -s ' ' | grep . | while read -r l; do
  r=$(echo "$l" | sed 's/.*axioms: \[//; s/\].*//; s/propext//; s/Classical.choice//; s/Quot.sound//; s/[, ]//g')
  case "$l" in *"does not depend on any axioms"*) ;; *) [ -n "$r" ] && echo "$l";; esac
done
rm -f "$f"
grep -rnE 'sorry|admit|^axiom |native_decide|bv_decide|implemented_by|unsafe ' Verif
true
