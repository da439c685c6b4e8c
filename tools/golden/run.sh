#!/bin/sh
# Runs the model of the lexer, the parser and the tree sink on the parser fixtures of the target and compares the trees.
# A check of the model against recorded outputs, not a proof. Usage: tools/golden/run.sh [/repo]
repo=${1:-/repo}
cd "$(dirname "$0")/../../lean" || exit 1
out=$(mktemp -d)
files=$(find "$repo/crates/syntax/tests" -name '*.move' | sort)
GOLDEN_OUT=$out lake env lean --run ../tools/golden/run_model.txt $files
n=0; bad=0
for f in $files; do
  t=${f%.move}.txt
  [ -f "$t" ] || continue
  n=$((n + 1))
  o="$out/$(echo "$f" | tr / _).out"
  if ! sed '/^ERRORS /d' "$o" | diff -q -B - "$t" > /dev/null; then bad=$((bad + 1)); echo "differs: $f"; fi
done
echo "$n fixtures, $bad differ"
rm -r "$out"
