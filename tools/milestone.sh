#!/bin/bash
# usage: tools/milestone.sh "message"
cd /verif && python3 tools/design.py && python3 tools/imports.py && python3 tools/manifest.py | cut -c1-300
cd lean && lake build 2>&1 | grep -E "error:|Build completed" | tail -20
cd .. && git add -A && git commit -qm "$1" && vcheck | tail -1 | cut -c1-400
