"""Writes MANIFEST.json: collects the theorems named C<nn>_* from lean/Verif and adds status and notes from tools/status.json."""
import json, re, glob, os
root = os.path.dirname(os.path.dirname(os.path.abspath(__file__)))
thms = {}
for f in sorted(glob.glob(root + "/lean/Verif/**/*.lean", recursive=True)):
    ns = []
    for line in open(f):
        m = re.match(r"namespace (\S+)", line)
        if m: ns.append(m.group(1))
        m = re.match(r"end (\S+)", line)
        if m and ns and ns[-1] == m.group(1): ns.pop()
        m = re.match(r"(?:protected |private )?theorem (C(\d+)_\S+)", line)
        if m: thms.setdefault("C" + m.group(2), []).append(".".join(ns + [m.group(1)]))
status = json.load(open(root + "/tools/status.json"))
claims = []
for line in open(root + "/properties.jsonl"):
    i = json.loads(line)["id"]
    st = status.get(i)
    ts = thms.get(i, [])
    if st is None: continue
    if st["status"] == "partial" and not any(t.endswith("_partial") for t in ts): print("no _partial theorem for", i)
    if st["status"] == "proved" and any(t.endswith("_partial") for t in ts): print("proved but _partial theorem for", i)
    claims.append(dict(property=i, status=st["status"], theorems=ts, note=st["note"]))
for i in thms:
    if i not in status: print("no status for", i)
json.dump({"claims": claims}, open(root + "/MANIFEST.json", "w"), indent=1, ensure_ascii=False)
print(len(claims), "claims,", sum(c["status"] == "proved" for c in claims), "proved,", sum(len(c["theorems"]) for c in claims), "theorems")
