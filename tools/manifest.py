#!/usr/bin/env python3
"""Regenerate MANIFEST.json: collect theorems named Cxx_... from lean/Verif/Props and merge with
the statuses and notes in tools/status.json."""
import json, pathlib, re, collections

root = pathlib.Path(__file__).resolve().parent.parent
thms = collections.defaultdict(list)
for f in sorted((root / "lean" / "Verif" / "Props").glob("*.lean")):
    ns = []
    for line in f.read_text().splitlines():
        m = re.match(r"namespace\s+(\S+)", line)
        if m:
            ns.append(m.group(1))
        m = re.match(r"end\s+(\S+)", line)
        if m and ns and ns[-1] == m.group(1):
            ns.pop()
        m = re.match(r"(?:@\[[^\]]*\]\s*)?theorem\s+(C\d\d+)_(\S+)", line)
        if m:
            thms[m.group(1)].append(".".join(ns + [m.group(1) + "_" + m.group(2)]))
status = json.loads((root / "tools" / "status.json").read_text())
claims = []
for line in (root / "properties.jsonl").read_text().splitlines():
    if not line.strip():
        continue
    pid = json.loads(line)["id"]
    st = status.get(pid)
    if st is None:
        if thms.get(pid):
            print("no status for", pid)
        continue
    if st["status"] != "not_applicable" and not thms.get(pid):
        print("no theorem for", pid)
    claims.append({"property": pid, "status": st["status"], "theorems": thms.get(pid, []),
                   "note": st["note"]})
(root / "MANIFEST.json").write_text(json.dumps({"claims": claims}, indent=1) + "\n")
print(len(claims), "claims", sum(len(c["theorems"]) for c in claims), "theorems")
