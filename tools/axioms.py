"""Prints, for every theorem of MANIFEST.json, the axioms it depends on, grouped by set.  Run in /verif after `lake build`."""
import json, os, re, subprocess, tempfile
root = os.path.join(os.path.dirname(os.path.abspath(__file__)), "..")
claims = json.load(open(os.path.join(root, "MANIFEST.json")))["claims"]
names = []
for c in claims:
    for t in c["theorems"]:
        if t not in names:
            names.append(t)
src = "import Verif\n" + "".join("#print axioms %s\n" % n for n in names)
f = tempfile.NamedTemporaryFile("w", suffix=".lean", delete=False)
f.write(src)
f.close()
out = subprocess.run(["lake", "env", "lean", f.name], cwd=os.path.join(root, "lean"), capture_output=True, text=True).stdout
os.unlink(f.name)
out = re.sub(r"\n\s+", " ", out)
sets = {}
for m in re.finditer(r"'([^']+)' (does not depend on any axioms|depends on axioms: \[([^\]]*)\])", out):
    key = m.group(3) or "none"
    key = ", ".join(sorted(x.strip() for x in key.split(",")))
    sets.setdefault(key, []).append(m.group(1).removeprefix("Zh."))
for k in sorted(sets, key=lambda k: (len(k), k)):
    print("* **%s** (%d): %s." % (k, len(sets[k]), ", ".join("`%s`" % x for x in sets[k])))
print("\n%d of %d theorems" % (sum(map(len, sets.values())), len(names)))
