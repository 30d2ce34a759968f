#!/bin/bash
# milestone.sh MESSAGE: regenerate, build, commit, vcheck
cd /verif && python3 tools/props.py && python3 tools/gen.py || exit 1
(cd lean && lake build > /tmp/build.out 2>&1) || { grep -E -A6 "error" /tmp/build.out | tail -40; exit 1; }
git add -A && git commit -qm "$1" && vcheck | tail -${2:-4}
