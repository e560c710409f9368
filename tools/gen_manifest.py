#!/usr/bin/env python3
"""Writes /verif/MANIFEST.json from the theorem names Cnn_... in lean/Verif/Props/*.lean."""
import json, os, re, glob
os.chdir(os.path.dirname(os.path.abspath(__file__)) + "/..")
ids = [json.loads(l)["id"] for l in open("properties.jsonl")]
thms = {i: [] for i in ids}
for f in sorted(glob.glob("lean/Verif/Props/*.lean")):
    ns = []
    for line in open(f):
        if m := re.match(r"namespace (\S+)", line):
            ns.append(m.group(1))
        elif (m := re.match(r"end (\S+)", line)) and ns and ns[-1] == m.group(1):
            ns.pop()
        elif m := re.match(r"theorem (C\d\d\d?)(_\w+)", line):
            thms[m.group(1)].append(".".join(ns + [m.group(1) + m.group(2)]))
from manifest_notes import NOTES
claims = []
for i in ids:
    st, note = NOTES.get(i, ("proved", ""))
    if not thms[i]:
        continue
    claims.append({"property": i, "status": st, "theorems": thms[i], "note": note})
json.dump({"claims": claims}, open("MANIFEST.json", "w"), indent=1, ensure_ascii=False)
print(len(claims), "claims,", sum(len(c["theorems"]) for c in claims), "theorems; missing:",
      [i for i in ids if not thms[i]])
