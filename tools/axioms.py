#!/usr/bin/env python3
"""Writes AXIOMS.md: the axioms every theorem named in MANIFEST.json depends on, as Lean's `#print axioms` reports them.
usage (after `lake build`): tools/axioms.py"""
import json, os, re, subprocess, tempfile
top = os.path.join(os.path.dirname(os.path.abspath(__file__)), "..")
claims = json.load(open(os.path.join(top, "MANIFEST.json")))["claims"]
names = [t for c in claims for t in c["theorems"]]
names = list(dict.fromkeys(names))
with tempfile.NamedTemporaryFile("w", suffix=".lean", delete=False) as f:
    f.write("import Verif\n" + "".join(f"#print axioms {n}\n" for n in names))
out = subprocess.run(["lake", "env", "lean", f.name], cwd=os.path.join(top, "lean"), capture_output=True, text=True).stdout
os.unlink(f.name)
got = {}
for m in re.finditer(r"'([\w.']+)' (?:depends on axioms: \[([^\]]*)\]|does not depend on any axioms)", out):
    got[m.group(1)] = ", ".join(m.group(2).split(",\n")) if m.group(2) else ""
groups = {}
for n in names:
    groups.setdefault(re.sub(r"\s+", " ", got[n]), []).append(n)
allowed = {"propext", "Classical.choice", "Quot.sound", ""}
with open(os.path.join(top, "AXIOMS.md"), "w") as f:
    f.write("# Axioms of the property theorems\n\nWritten by `tools/axioms.py` from `#print axioms`; all names are in namespace `Blink`.\n")
    for g in sorted(groups, key=lambda g: -len(groups[g])):
        assert set(g.split(", ")) <= allowed, g
        f.write(f"\n## {g or 'no axioms'} ({len(groups[g])} theorems)\n\n")
        f.write(", ".join(f"`{n.removeprefix('Blink.')}`" for n in groups[g]) + "\n")
print({g: len(v) for g, v in groups.items()})
