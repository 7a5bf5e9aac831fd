#!/usr/bin/env python3
"""Writes AXIOMS.md: the axioms every theorem of the manifest depends on. Needs a built project."""
import json, os, re, subprocess, tempfile
ROOT = os.path.dirname(os.path.dirname(os.path.abspath(__file__)))
names = sorted({t for c in json.load(open(ROOT + "/MANIFEST.json"))["claims"] for t in c["theorems"]})
with tempfile.NamedTemporaryFile("w", suffix=".lean", delete=False) as f:
    f.write("import Verif\n" + "".join(f"#print axioms {n}\n" for n in names))
r = subprocess.run(["lake", "env", "lean", f.name], cwd=ROOT + "/lean", capture_output=True, text=True)
os.remove(f.name)
out = re.sub(r"\s+", " ", r.stdout + r.stderr)
with open(ROOT + "/AXIOMS.md", "w") as g:
    g.write("# Axioms used by the theorems of MANIFEST.json\n\nGenerated by `tools/axioms.py` from `#print axioms`.\n\n| theorem | axioms |\n|---|---|\n")
    for n in names:
        m = re.search("'" + re.escape(n) + r"' depends on axioms: \[([^\]]*)\]", out)
        z = re.search("'" + re.escape(n) + r"' does not depend on any axioms", out)
        assert m or z, (n, out[:500])
        g.write(f"| {n} | {m.group(1) if m else 'none'} |\n")
