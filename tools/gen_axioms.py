#!/usr/bin/env python3
"""Write lean/Verif/Axioms.lean (one `#print axioms` per claimed theorem), build it and put the table into DESIGN.md, section 6."""
import json
import os
import re
import subprocess

ROOT = os.path.dirname(os.path.dirname(os.path.abspath(__file__)))
LEAN = os.path.join(ROOT, "lean")
START, END = "<!-- axioms start -->", "<!-- axioms end -->"


def main():
    claims = json.load(open(os.path.join(ROOT, "MANIFEST.json")))["claims"]
    names = []
    for c in claims:
        for t in c["theorems"]:
            if t not in names:
                names.append(t)
    imports = sorted(l for l in open(os.path.join(LEAN, "Verif.lean")).read().split("\n") if "Verif.Props." in l)
    with open(os.path.join(LEAN, "Verif/Axioms.lean"), "w") as f:
        f.write("\n".join(imports) + "\n\n/-! The axioms of every theorem in `MANIFEST.json`. Generated by `tools/gen_axioms.py`. -/\n\n")
        for n in names:
            f.write(f"#print axioms {n}\n")
    out = subprocess.run(["lake", "build", "Verif.Axioms"], cwd=LEAN, capture_output=True, text=True)
    text = out.stdout + out.stderr
    if out.returncode:
        raise SystemExit(text[-3000:])
    found = {}
    for m in re.finditer(r"'(\S+)' depends on axioms: \[([^\]]*)\]", text):
        found[m.group(1)] = ", ".join(x.strip() for x in m.group(2).split(","))
    for m in re.finditer(r"'(\S+)' does not depend on any axioms", text):
        found[m.group(1)] = "none"
    missing = [n for n in names if n not in found]
    if missing:
        raise SystemExit(f"no output for {missing}")
    groups = {}
    for n in names:
        groups.setdefault(found[n], []).append(n.replace("Hermipy.Props.", ""))
    lines = [START, ""]
    for ax in sorted(groups, key=lambda a: (len(a), a)):
        lines.append(f"* **{ax}** ({len(groups[ax])}): " + ", ".join(f"`{n}`" for n in groups[ax]))
    lines += ["", END]
    path = os.path.join(ROOT, "DESIGN.md")
    d = open(path).read()
    i, j = d.index(START), d.index(END) + len(END)
    open(path, "w").write(d[:i] + "\n".join(lines) + d[j:])
    print({a: len(g) for a, g in groups.items()})


if __name__ == "__main__":
    main()
