#!/bin/bash
# milestone: regenerate manifest, build, commit
set -o pipefail; cd /verif && python3 tools/gen_manifest.py && cd lean && lake build 2>&1 | grep -v "^✔\|^ℹ" | tail -15 && cd .. && tools/axioms.sh && ! grep Unknown tools/axioms.txt && python3 tools/gen_design.py >/dev/null && git add -A && git commit -qm "$1" && git log --oneline | head -1
