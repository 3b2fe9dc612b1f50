#!/usr/bin/env python3
"""Print the axioms of every theorem named in MANIFEST.json and write AXIOMS.txt."""
import json, os, subprocess, tempfile, re, collections
root = os.path.join(os.path.dirname(os.path.abspath(__file__)), "..")
names = [t for c in json.load(open(os.path.join(root, "MANIFEST.json")))["claims"] for t in c["theorems"]]
src = "import Verif\nopen JV\n" + "".join(f"#print axioms {n}\n" for n in names)
with tempfile.NamedTemporaryFile("w", suffix=".lean", delete=False) as f:
    f.write(src)
out = subprocess.run(["lake", "env", "lean", f.name], cwd=os.path.join(root, "lean"), capture_output=True, text=True)
text = re.sub(r"\n\s+", " ", out.stdout)
groups = collections.OrderedDict()
for line in text.splitlines():
    m = re.match(r"'JV\.(\S+)' (.*)", line)
    if not m:
        print("??", line)
        continue
    groups.setdefault(m.group(2), []).append(m.group(1))
with open(os.path.join(root, "AXIOMS.txt"), "w") as f:
    f.write("Axioms of the theorems in MANIFEST.json, as printed by #print axioms (tools/axioms.py).\n")
    for a, ns in groups.items():
        f.write(f"\n{a}:\n  " + " ".join(ns) + "\n")
for a, ns in groups.items():
    print(len(ns), a)
