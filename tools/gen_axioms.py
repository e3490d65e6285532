#!/usr/bin/env python3
"""Write the table of axioms at the end of DESIGN.md: what `#print axioms` says about each theorem of the manifest."""
import json, os, re, subprocess

ROOT = os.path.dirname(os.path.dirname(os.path.abspath(__file__)))
MARK = "<!-- axioms: written by tools/gen_axioms.py -->"
names = []
for c in json.load(open(os.path.join(ROOT, "MANIFEST.json")))["claims"]:
    names += [t for t in c["theorems"] if t not in names]
tmp = "/tmp/axioms.lean"
with open(tmp, "w") as f:
    f.write("import Verif\n" + "".join(f"#print axioms {n}\n" for n in names))
out = subprocess.run(["lake", "env", "lean", tmp], cwd=os.path.join(ROOT, "lean"), capture_output=True, text=True).stdout
out = re.sub(r"\n +", " ", out)
deps = {}
for n in names:
    m = re.search(rf"'{re.escape(n)}' (does not depend on any axioms|depends on axioms: \[([^\]]*)\])", out)
    if not m:
        raise SystemExit(f"no answer for {n}:\n{out[:2000]}")
    deps.setdefault(", ".join(sorted(m.group(2).split(", "))) if m.group(2) else "none", []).append(n)
text = ""
for k in sorted(deps, key=lambda k: (len(k), k)):
    text += f"\n**{k}** ({len(deps[k])}): " + ", ".join(f"`{n.replace('Meerkat.', '')}`" for n in deps[k]) + ".\n"
path = os.path.join(ROOT, "DESIGN.md")
s = open(path).read()
open(path, "w").write(s[:s.index(MARK) + len(MARK)] + "\n" + text)
