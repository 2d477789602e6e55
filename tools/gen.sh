#!/bin/sh
# regenerate lean/Verif.lean (imports of every module)
cd /verif/lean && find Verif -name '*.lean' | sort | sed 's#/#.#g; s#\.lean$##; s#^#import #' > Verif.lean
