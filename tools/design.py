"""Writes DESIGN.md from design_head.md and the axioms of the theorems (run after `lake build`)."""
import os, subprocess, sys
d = os.path.dirname(os.path.abspath(__file__))
ax = subprocess.run([sys.executable, os.path.join(d, "axioms.py")], capture_output=True, text=True).stdout
open(os.path.join(d, "..", "DESIGN.md"), "w").write(
    open(os.path.join(d, "design_head.md")).read() + "## Axioms of the theorems in MANIFEST.json\n\n" + ax)
