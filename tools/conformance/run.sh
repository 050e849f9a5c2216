#!/bin/bash
# Runs the unit tests of the library and the example of its README on the model.  Needs a built /verif/lean.
here="$(cd "$(dirname "$0")" && pwd)"
python3 "$here/gen.py" && cd "$here/../../lean" && ulimit -s unlimited && lake env lean --tstack=2000000 /tmp/conformance.lean
