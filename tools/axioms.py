"""Write tools/axioms.txt: the axioms each property theorem depends on (run after `lake build`)."""
import os, re, subprocess, sys
root = os.path.dirname(os.path.dirname(os.path.abspath(__file__)))
lean = os.path.join(root, "lean")
names = []
props = os.path.join(lean, "Verif", "Props")
for f in sorted(os.listdir(props)):
    names += re.findall(r"^theorem (c\d\d\d?_\w+)", open(os.path.join(props, f)).read(), re.M)
src = "import Verif\n" + "".join(f"#print axioms Lev.Props.{n}\n" for n in sorted(names))
tmp = "/tmp/axioms_check.lean"
open(tmp, "w").write(src)
out = subprocess.run(["lake", "env", "lean", tmp], cwd=lean, capture_output=True, text=True).stdout
out = re.sub(r",\n\s*", ", ", out).replace("'Lev.Props.", "'")
open(os.path.join(root, "tools", "axioms.txt"), "w").write(out)
bad = [l for l in out.splitlines() if not re.fullmatch(r"'\w+' (does not depend on any axioms|depends on axioms: \[((propext|Classical.choice|Quot.sound)(, )?)*\])", l)]
print(len(names), "theorems;", "unexpected:", bad)
sys.exit(bool(bad))
