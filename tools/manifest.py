#!/usr/bin/env python3
"""Writes /verif/MANIFEST.json from the table below and checks that every named theorem exists."""
import json,re,glob
C=[]
def c(prop,status,theorems,note=""):
    C.append(dict(property=prop,status=status,theorems=["Verif.Props."+t for t in theorems.split()],note=note))
exec(open("/verif/tools/claims.py").read())
json.dump({"claims":C},open("/verif/MANIFEST.json","w"),indent=1)
src="\n".join(open(f).read() for f in glob.glob("/verif/lean/Verif/Props/*.lean"))
names=set(re.findall(r"^theorem\s+(\S+)",src,re.M))
for x in C:
    for t in x["theorems"]:
        if t.split(".")[-1] not in names: print("MISSING",t)
used={t.split(".")[-1] for x in C for t in x["theorems"]}
for n in sorted(names-used): print("unclaimed",n)
props=[json.loads(l)["id"] for l in open("/verif/properties.jsonl")]
have={x["property"] for x in C}
print("no claim:", [p for p in props if p not in have])
