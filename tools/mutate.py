"""Mutation testing of the theorems.

usage: mutate.py FILE.json   where FILE.json is a list of
  {"file": "Verif/Model/X.lean", "old": "...", "new": "...", "definition": "...", "edit": "...", "claim": "...", "tightened": []}
Copies the project to a scratch directory, applies one edit at a time, rebuilds and appends one line per edit to seeded/LOG.jsonl.
"""
import json, os, re, shutil, subprocess, sys
ROOT = os.path.dirname(os.path.dirname(os.path.abspath(__file__)))
SCR = "/root/mut/lean"

def decl_at(path, line):
    lines = open(path).read().split("\n")
    for i in range(line - 1, -1, -1):
        m = re.match(r"(?:@\[.*?\]\s*)?(?:private |noncomputable |protected )*(theorem|def|instance|example|structure|inductive|lemma)\b\s*([^\s:({\[]*)", lines[i])
        if m:
            return m.group(2) if m.group(2) else "example@%s:%d" % (os.path.basename(path), i + 1)
    return "?"

def main():
    muts = json.load(open(sys.argv[1]))
    log = open(os.path.join(ROOT, "seeded", "LOG.jsonl"), "a")
    os.makedirs("/root/mut", exist_ok=True)
    subprocess.run(["rsync", "-a", "--delete", ROOT + "/lean/", SCR + "/"], check=True) if shutil.which("rsync") else (
        shutil.rmtree(SCR, ignore_errors=True), shutil.copytree(ROOT + "/lean", SCR, symlinks=True))
    imports = {}
    for d, _, fs in os.walk(SCR + "/Verif"):
        for f in fs:
            if f.endswith(".lean"):
                p = os.path.join(d, f)
                mod = os.path.relpath(p, SCR)[:-5].replace("/", ".")
                imports[mod] = re.findall(r"^import (Verif\.\S+)", open(p).read(), re.M)
    for m in muts:
        p = os.path.join(SCR, m["file"])
        orig = open(p).read()
        assert orig.count(m["old"]) >= 1, ("pattern not found", m["file"], m["old"])
        open(p, "w").write(orig.replace(m["old"], m["new"], 1))
        out = subprocess.run(["lake", "build"], cwd=SCR, capture_output=True, text=True)
        txt = out.stdout + out.stderr
        failed, mods = [], set()
        for f, l in re.findall(r"error: (Verif/\S+?\.lean):(\d+):\d+", txt):
            n = decl_at(os.path.join(SCR, f), int(l))
            if n not in failed:
                failed.append(n)
            mods.add(f[:-5].replace("/", "."))
        down = set(mods)
        ch = True
        while ch:
            ch = False
            for k, v in imports.items():
                if k not in down and any(x in down for x in v):
                    down.add(k); ch = True
        # property theorems resting on a failed module
        blocked = []
        for k in sorted(down):
            if k.startswith("Verif.Props.") and k not in mods:
                blocked.append(k)
        open(p, "w").write(orig)
        rec = dict(definition=m["definition"], edit=m["edit"], claim_broken=m["claim"],
                   theorems_failed=failed, property_modules_blocked=blocked,
                   theorems_tightened=m.get("tightened", []))
        if not failed:
            rec["note"] = m.get("note", "SURVIVED")
        print(json.dumps(rec))
        if failed or m.get("note"):
            log.write(json.dumps(rec) + "\n"); log.flush()

main()
