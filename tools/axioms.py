#!/usr/bin/env python3
"""Writes section 6 of ../DESIGN.md from `#print axioms` of the theorems of ../MANIFEST.json."""
import json, os, re, subprocess, collections, tempfile
top = os.path.join(os.path.dirname(os.path.abspath(__file__)), "..")
names = []
for c in json.load(open(os.path.join(top, "MANIFEST.json")))["claims"]:
    names += [t for t in c["theorems"] if t not in names]
with tempfile.NamedTemporaryFile("w", suffix=".lean", delete=False) as f:
    f.write("import Verif\n" + "".join("#print axioms %s\n" % t for t in names))
out = subprocess.run(["lake", "env", "lean", f.name], cwd=os.path.join(top, "lean"), capture_output=True, text=True).stdout
ax = {}
for l in out.replace("\n ", " ").splitlines():
    m = re.match(r"'(.*)' depends on axioms: \[(.*)\]", l)
    if m:
        ax[m.group(1)] = ", ".join(sorted(x.strip() for x in m.group(2).split(",")))
    elif re.match(r"'(.*)' does not depend", l):
        ax[re.match(r"'(.*)' does not", l).group(1)] = "none"
groups = collections.defaultdict(list)
for t in names:
    groups[ax[t]].append(t.replace("MpcAlloc.", ""))
text = ""
for k in sorted(groups):
    text += "* **%s**: %s\n" % (k, ", ".join("`%s`" % t for t in sorted(groups[k])))
p = os.path.join(top, "DESIGN.md")
s = open(p).read()
i = s.index("<!-- axioms -->")
open(p, "w").write(s[:i] + "<!-- axioms -->\n" + text)
