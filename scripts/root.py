"""Regenerates lean/Verif.lean: one import per module under lean/Verif."""
import os
base = os.path.join(os.path.dirname(os.path.dirname(os.path.abspath(__file__))), "lean")
mods = []
for d, _, fs in os.walk(os.path.join(base, "Verif")):
    for f in fs:
        if f.endswith(".lean"):
            mods.append(os.path.relpath(os.path.join(d, f), base)[:-5].replace("/", "."))
with open(os.path.join(base, "Verif.lean"), "w") as f:
    f.writelines("import %s\n" % m for m in sorted(mods))
