#!/usr/bin/env python3
"""Seeded-bug runner.  usage: mutate.py mutants.py [--log]
A mutants file calls m(file, definition, old, new, edit, claim[, target]).  Each mutant is applied to a scratch
copy in /tmp/mut, the target (default Verif) is rebuilt, and the declarations with errors are listed.
With --log one line per mutant is appended to seeded/LOG.jsonl."""
import json, os, re, subprocess, sys
ROOT = "/verif"; SCR = "/tmp/mut"
M = []
def m(file, definition, old, new, edit, claim, target="Verif", tightened=()):
    M.append(dict(file=file, definition=definition, old=old, new=new, edit=edit, claim=claim, target=target, tightened=list(tightened)))
exec(open(sys.argv[1]).read())
subprocess.run(["rsync", "-a", "--delete", ROOT + "/lean/", SCR + "/"], check=False) if os.path.exists("/usr/bin/rsync") else \
    subprocess.run("rm -rf %s && cp -a %s/lean %s" % (SCR, ROOT, SCR), shell=True, check=True)
def owner(path, line):
    name = "?"
    for i, l in enumerate(open(path), 1):
        if i > line: break
        g = re.match(r"(?:@\[.*?\]\s*)?(?:private |protected |noncomputable )*(theorem|lemma|def|example|instance|abbrev)\s*([^\s:({\[]*)", l)
        if g: name = g.group(2) or g.group(1)
    return name
for x in M:
    p = os.path.join(SCR, "Verif", x["file"])
    src = open(p).read()

    if src.count(x["old"]) != 1: print("PATTERN", src.count(x["old"]), x["definition"], x["old"]); continue
    open(p, "w").write(src.replace(x["old"], x["new"]))
    r = subprocess.run(["lake", "build", x["target"]], cwd=SCR, capture_output=True, text=True)
    out = r.stdout + r.stderr
    fails = []
    for g in re.finditer(r"error: (Verif/\S+?\.lean):(\d+):", out):
        n = owner(os.path.join(SCR, g.group(1)), int(g.group(2)))
        n = g.group(1)[6:-5].replace("/", ".") + ":" + n
        if n not in fails: fails.append(n)
    open(p, "w").write(src)
    print(("CAUGHT  " if r.returncode else "SURVIVED"), x["definition"], "|", x["edit"], "|", fails[:6])
    if "--log" in sys.argv:
        with open(ROOT + "/seeded/LOG.jsonl", "a") as f:
            f.write(json.dumps(dict(definition=x["file"] + ":" + x["definition"], edit=x["edit"], claim_broken=x["claim"],
                theorems_failed=fails, outcome="caught" if r.returncode else "survived", theorems_tightened=x["tightened"])) + "\n")
