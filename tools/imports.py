"""Regenerates lean/Verif.lean: imports every module under lean/Verif."""
import os
root = os.path.join(os.path.dirname(os.path.dirname(os.path.abspath(__file__))), "lean")
mods = []
for d, _, fs in os.walk(os.path.join(root, "Verif")):
    for f in fs:
        if f.endswith(".lean"):
            mods.append(os.path.relpath(os.path.join(d, f), root)[:-5].replace("/", "."))
order = {"Spec": 0, "Model": 1, "Proofs": 2, "Props": 3}
mods.sort(key=lambda m: (order.get(m.split(".")[1], 9), m))
open(os.path.join(root, "Verif.lean"), "w").write("".join("import %s\n" % m for m in mods))
print(len(mods))
