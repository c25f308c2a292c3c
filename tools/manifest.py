#!/usr/bin/env python3
"""Regenerate MANIFEST.json from the theorem names in lean/Verif/Props and tools/status.json."""
import glob, json, os, re
root = os.path.dirname(os.path.dirname(os.path.abspath(__file__)))
status = json.load(open(os.path.join(root, "tools/status.json")))
thms = {}
for f in sorted(glob.glob(os.path.join(root, "lean/Verif/Props/*.lean"))):
    for m in re.finditer(r"^theorem (C\d\d+)_(\S+)", open(f).read(), re.M):
        thms.setdefault(m.group(1), []).append("Tachyon.Props.%s_%s" % m.groups())
claims = []
for line in open(os.path.join(root, "properties.jsonl")):
    pid = json.loads(line)["id"]
    if pid not in thms:
        continue
    st = status.get(pid, {})
    claims.append({"property": pid, "status": st.get("status", "proved"),
                   "theorems": thms[pid], "note": st.get("note", "")})
with open(os.path.join(root, "MANIFEST.json"), "w") as fh:
    fh.write('{"claims": [\n' + ",\n".join("  " + json.dumps(c) for c in claims) + "\n]}\n")
print(len(claims), "claims;", [c["property"] for c in claims if c["status"] != "proved"])
