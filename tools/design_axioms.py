#!/usr/bin/env python3
"""Fill in the axioms section of DESIGN.md from `#print axioms` (run after `lake build`)."""
import collections, json, os, re, subprocess, tempfile

ROOT = os.path.dirname(os.path.dirname(os.path.abspath(__file__)))
names = list(dict.fromkeys(t for c in json.load(open(f"{ROOT}/MANIFEST.json"))["claims"] for t in c["theorems"]))
with tempfile.NamedTemporaryFile("w", suffix=".lean", delete=False) as f:
    f.write("import Verif\n" + "\n".join(f"#print axioms {n}" for n in names))
out = subprocess.run(["lake", "env", "lean", f.name], cwd=f"{ROOT}/lean", capture_output=True, text=True).stdout
groups = collections.OrderedDict()
for m in re.finditer(r"'(\S+)' (?:does not depend on any axioms|depends on axioms: \[([^\]]*)\])", out):
    groups.setdefault(" ".join((m.group(2) or "none").split()), []).append(m.group(1).replace("Extra.", ""))
assert sum(map(len, groups.values())) == len(names), out
text = "\n".join(f"  * {k} ({len(v)}): {', '.join(v)}" for k, v in groups.items())
p = f"{ROOT}/DESIGN.md"
s = open(p).read()
s = re.sub(r"(<!-- axioms -->\n).*(<!-- /axioms -->)", lambda m: m.group(1) + text + "\n" + m.group(2), s, flags=re.S)
open(p, "w").write(s)
