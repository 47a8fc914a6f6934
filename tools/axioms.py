#!/usr/bin/env python3
"""Rewrite the section `Axioms of each theorem` of DESIGN.md from `#print axioms`.
Run in /verif after `lake build` in lean/ and tools/manifest.py."""
import json, os, re, subprocess, tempfile
root = os.path.dirname(os.path.dirname(os.path.abspath(__file__)))
names = [t for c in json.load(open(root + "/MANIFEST.json"))["claims"] for t in c["theorems"]]
src = "import Verif\n" + "".join(f"#print axioms {n}\n" for n in names)
with tempfile.NamedTemporaryFile("w", suffix=".lean", delete=False) as f:
    f.write(src)
out = subprocess.run(["lake", "env", "lean", f.name], cwd=root + "/lean", capture_output=True, text=True).stdout
groups = {}
out = re.sub(r"\n\s+", " ", out)
for m in re.finditer(r"'([^']+(?:'[^' ]*)*)' (does not depend on any axioms|depends on axioms: \[([^\]]*)\])", out):
    ax = m.group(3) or "none"
    groups.setdefault(", ".join(sorted(ax.split(", "))), []).append(m.group(1).split(".")[-1])
n = sum(map(len, groups.values()))
assert n == len(names), (n, len(names), out[:500])
text = "## Axioms of each theorem\n\nGenerated by tools/axioms.py from `#print axioms`.\n"
for ax, ts in sorted(groups.items(), key=lambda x: len(x[0])):
    text += f"\n{ax}:\n" + ", ".join(f"`{t}`" for t in ts) + "\n"
p = root + "/DESIGN.md"
s = open(p).read()
i = s.find("## Axioms of each theorem")
s = (s[:i] if i >= 0 else s.rstrip() + "\n\n") + text
open(p, "w").write(s)
print({k: len(v) for k, v in groups.items()})
