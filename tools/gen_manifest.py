#!/usr/bin/env python3
"""Writes MANIFEST.json from CLAIMS below; `--audit` also prints the axioms of every listed theorem."""
import json, os, subprocess, sys, tempfile
HERE = os.path.dirname(os.path.abspath(__file__))
CLAIMS = []
def c(prop, status, theorems, note=""): CLAIMS.append(dict(property=prop, status=status, theorems=theorems, note=note))
exec(open(os.path.join(HERE, "claims.py")).read())
known = [json.loads(l)["id"] for l in open(os.path.join(HERE, "..", "properties.jsonl"))]
for x in CLAIMS: assert x["property"] in known, x
json.dump({"claims": CLAIMS}, open(os.path.join(HERE, "..", "MANIFEST.json"), "w"), indent=1, ensure_ascii=False)
print("claims:", len(CLAIMS), "missing:", [k for k in known if k not in [x["property"] for x in CLAIMS]])
if "--audit" in sys.argv:
    lean = os.path.join(HERE, "..", "lean")
    src = "import Verif\n" + "".join("#print axioms %s\n" % t for x in CLAIMS for t in x["theorems"])
    f = tempfile.NamedTemporaryFile("w", suffix=".lean", delete=False); f.write(src); f.close()
    r = subprocess.run(["lake", "env", "lean", f.name], cwd=lean, capture_output=True, text=True)
    out = r.stdout + r.stderr
    bad = [l for l in out.replace("\n ", " ").splitlines() if "error" in l or ("depends on axioms" in l and not set(
        l.split("[")[1].split("]")[0].replace(" ", "").split(",")) <= {"propext", "Classical.choice", "Quot.sound"})]
    print("audited", out.count("depends on axioms") + out.count("does not depend"), "problems:", bad)
