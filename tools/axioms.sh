#!/bin/sh
# Regenerate AXIOMS.md: the axioms of every theorem named in MANIFEST.json (needs a finished `lake build`).
set -e
cd "$(dirname "$0")/.."
t=$(mktemp -d)
python3 - "$t/ax.lean" <<'PY'
import json, sys
names = sorted({n for c in json.load(open("MANIFEST.json"))["claims"] for n in c["theorems"]})
open(sys.argv[1], "w").write("import Verif\n" + "".join(f"#print axioms {n}\n" for n in names))
PY
(cd lean && lake env lean "$t/ax.lean") > "$t/out"
python3 - "$t/out" <<'PY'
import re, sys
txt = open(sys.argv[1]).read()
groups = {}
for m in re.finditer(r"'([^']+(?:'[^' ]*)*)' (?:depends on axioms: \[([^\]]*)\]|does not depend on any axioms)", txt):
    ax = ", ".join(sorted(a.strip() for a in (m.group(2) or "").split(",") if a.strip())) or "none"
    groups.setdefault(ax, []).append(m.group(1).removeprefix("Krypy."))
with open("AXIOMS.md", "w") as f:
    f.write("# Axioms of the theorems in MANIFEST.json\n\nOutput of `#print axioms`, grouped; regenerate with `tools/axioms.sh`.\n"
            "All names are in the namespace `Krypy`.\n")
    for ax in sorted(groups, key=lambda a: (a != "none", a)):
        f.write(f"\n## {ax} ({len(groups[ax])} theorems)\n\n" + ", ".join(f"`{n}`" for n in sorted(groups[ax])) + "\n")
PY
rm -r "$t"
