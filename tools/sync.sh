#!/bin/bash
# Regenerate Verif.lean, properties.jsonl and MANIFEST.json.
set -e
cd /verif/lean
find Verif -name '*.lean' | sort | sed 's/\.lean$//; s#/#.#g; s/^/import /' > Verif.lean
python3 ../tools/make_properties.py
python3 ../tools/make_manifest.py
