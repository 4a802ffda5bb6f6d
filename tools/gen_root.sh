#!/bin/sh
# regenerate lean/Verif.lean
cd "$(dirname "$0")/../lean" && find Verif -name '*.lean' | LC_ALL=C sort | sed 's/\.lean$//; s#/#.#g; s/^/import /' > Verif.lean
