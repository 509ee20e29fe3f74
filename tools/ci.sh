#!/bin/bash
# commit + vcheck: tools/ci.sh "message"
cd /verif && python3 tools/manifest.py && git add -A && git commit -qm "$1"; vcheck 2>&1 | tail -${N:-15}
