#!/bin/sh
# Regenerates lean/Verif.lean so that it imports every module below lean/Verif.
cd "$(dirname "$0")/../lean" || exit 1
find Verif -name '*.lean' | sort | sed 's#/#.#g; s#\.lean$##; s#^#import #' > Verif.lean
