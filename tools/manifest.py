"""Writes MANIFEST.json. One entry per property: status, theorem names, note."""
import json, os, re
HERE = os.path.dirname(os.path.abspath(__file__))
ROOT = os.path.dirname(HERE)
C = []
def c(pid, status, theorems, note):
    C.append(dict(property=pid, status=status, theorems=["Verif." + t for t in theorems], note=note))

exec(open(os.path.join(HERE, "claims.py")).read())

# sanity: every theorem exists, every property is listed
src = ""
for d, _, fs in os.walk(os.path.join(ROOT, "lean", "Verif")):
    for f in fs:
        if f.endswith(".lean"):
            src += open(os.path.join(d, f)).read()
names = set(re.findall(r"theorem\s+([A-Za-z0-9_'.]+)", src))
for e in C:
    for t in e["theorems"]:
        assert t.removeprefix("Verif.") in names, t
props = [json.loads(l)["id"] for l in open(os.path.join(ROOT, "properties.jsonl"))]
done = {e["property"] for e in C}
print("not yet in manifest:", [p for p in props if p not in done])
used = {t.removeprefix("Verif.") for e in C for t in e["theorems"]}
print("property theorems not listed:", sorted(n for n in names if re.match(r"C\d\d", n) and n not in used))
json.dump(dict(claims=C), open(os.path.join(ROOT, "MANIFEST.json"), "w"), indent=1)
with open("/tmp/audit.lean", "w") as f:
    f.write("import Verif\n" + "".join(f"#print axioms {t}\n" for e in C for t in e["theorems"]))
