#!/bin/bash
# milestone: full build, manifest, commit, vcheck
cd /verif/lean && python3 /verif/tools/manifest.py && lake build > /tmp/lake_build.log 2>&1 || { grep -A12 'error:' /tmp/lake_build.log; exit 1; }
cd /verif && git add -A && git commit -qm "$1" && vcheck 2>&1 | tail -3 | cut -c1-900
