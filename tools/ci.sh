#!/bin/sh
# usage: tools/ci.sh "message": regenerate derived files, build, commit.
set -e
cd "$(dirname "$0")/.."
python3 tools/props.py; python3 tools/manifest.py
(cd lean; find Verif -name '*.lean' | LC_ALL=C sort | sed 's#/#.#g; s#\.lean$##; s#^#import #' > Verif.lean)
(cd lean; lake build 2>&1 | tail -5 | cut -c1-500; lake build >/dev/null 2>&1)
rm -f lean/lake-manifest.json
git add -A; git commit -qm "$1"; git log --oneline | head -1
