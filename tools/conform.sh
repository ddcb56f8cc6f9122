#!/bin/sh
# Compares the model's output for init.cora and lib/toc.cora with the C files in the repository (default: /repo).
cd "$(dirname "$0")/../lean" && lake build Verif.Conform >/dev/null &&
printf 'import Verif.Conform\n#eval Cora.Boot.conformAll "%s"\n' "${1:-/repo}" | lake env lean --stdin
