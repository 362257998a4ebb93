#!/bin/bash
# regenerate imports and manifest, build, audit axioms, commit with message $1
set -e
cd "$(dirname "$0")/.."
bash tools/imports.sh
python3 tools/manifest.py
cd lean
if ! lake build > /tmp/lakebuild.log 2>&1; then grep -E "error" /tmp/lakebuild.log; exit 1; fi
grep -E "sorry|Build completed" /tmp/lakebuild.log || true
lake env lean /tmp/audit.lean | grep -v "propext\|Classical\|Quot.sound\|does not depend" || true
cd ..
git add -A
git commit -qm "$1"
