"""Regenerates /verif/MANIFEST.json from the theorems present in lean/Verif/Props.

A theorem named C07_foo in namespace GA is listed under property C07.  Notes and overrides are kept
in tools/notes.json: {"C07": {"status": "partial", "note": "..."}}.
"""
import json, os, re
root = os.path.dirname(os.path.dirname(os.path.abspath(__file__)))
notes = json.load(open(os.path.join(root, "tools", "notes.json")))
props = [json.loads(l)["id"] for l in open(os.path.join(root, "properties.jsonl")) if l.strip()]
thms = {p: [] for p in props}
for d, _, fs in os.walk(os.path.join(root, "lean", "Verif", "Props")):
    for f in sorted(fs):
        if not f.endswith(".lean"):
            continue
        ns = []
        for line in open(os.path.join(d, f)):
            m = re.match(r"namespace\s+(\S+)", line)
            if m:
                ns.append(m.group(1))
            m = re.match(r"end\s+(\S+)", line)
            if m and ns and ns[-1] == m.group(1):
                ns.pop()
            m = re.match(r"theorem\s+(C\d+)_(\S+)", line)
            if m and m.group(1) in thms:
                thms[m.group(1)].append(".".join(ns + [m.group(1) + "_" + m.group(2)]))
claims = []
for p in props:
    o = notes.get(p, {})
    t = thms[p]
    st = o.get("status")
    if st is None:
        st = "proved" if t else None
    if st is None:
        continue
    claims.append({"property": p, "status": st, "theorems": t, "note": o.get("note", "")})
json.dump({"claims": claims}, open(os.path.join(root, "MANIFEST.json"), "w"), indent=1)
print(len(claims), "claims;", [p for p in props if not thms[p]], "open")
