#!/usr/bin/env python3
"""Write AXIOMS.md: the axioms each theorem in MANIFEST.json depends on, as reported by `#print axioms`.
The project has to be built."""
import json
import os
import re
import subprocess
import tempfile

here = os.path.dirname(os.path.dirname(os.path.abspath(__file__)))
with open(os.path.join(here, "MANIFEST.json")) as f:
    claims = json.load(f)["claims"]
names = sorted({t for c in claims for t in c["theorems"]})
with tempfile.NamedTemporaryFile("w", suffix=".lean", delete=False) as f:
    f.write("import Verif\n" + "".join(f"#print axioms {n}\n" for n in names))
out = subprocess.run(["lake", "env", "lean", f.name], cwd=os.path.join(here, "lean"), capture_output=True, text=True).stdout
os.unlink(f.name)
deps = {}
for m in re.finditer(r"'([^']+)' (?:depends on axioms: \[([^\]]*)\]|does not depend on any axioms)", out):
    deps[m.group(1)] = tuple(sorted(a.strip() for a in m.group(2).split(","))) if m.group(2) else ()
assert set(deps) == set(names), sorted(set(names) ^ set(deps))[:5]
groups = {}
for n in names:
    groups.setdefault(deps[n], []).append(n)
allowed = {"propext", "Classical.choice", "Quot.sound"}
with open(os.path.join(here, "AXIOMS.md"), "w") as f:
    f.write("# Axioms\n\nFrom `#print axioms`, by `tools/axioms.py`.\n")
    for g in sorted(groups, key=lambda g: (len(g), g)):
        assert set(g) <= allowed, g
        f.write("\n## " + (", ".join(f"`{a}`" for a in g) or "None") + "\n\n")
        f.writelines(f"* `{n}`\n" for n in groups[g])
