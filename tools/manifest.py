"""Generates MANIFEST.json (run: python3 tools/manifest.py). Checks that each theorem name occurs in the sources."""
import json, os, re, glob
root=os.path.join(os.path.dirname(os.path.abspath(__file__)),"..")
C={}
def c(pid,status,note,*thms): C[pid]=dict(property=pid,status=status,theorems=list(thms),note=note)
exec(open(os.path.join(root,"tools","claims.py")).read())
names=set()
for f in glob.glob(os.path.join(root,"lean","Verif","**","*.lean"),recursive=True):
    ns=[]
    for l in open(f):
        m=re.match(r"namespace (\S+)",l)
        if m: ns.append(m.group(1))
        m=re.match(r"end (\S+)",l)
        if m and ns and m.group(1)==ns[-1]: ns.pop()
        m=re.match(r"(?:protected |private )?theorem (\S+)",l)
        if m: names.add(".".join(ns+[m.group(1)]))
props=[json.loads(l)["id"] for l in open(os.path.join(root,"properties.jsonl"))]
for pid in C:
    assert pid in props, pid
    for t in C[pid]["theorems"]:
        if t not in names: print("MISSING", pid, t)
missing=[p for p in props if p not in C]
json.dump({"claims":[C[k] for k in sorted(C,key=lambda s:int(s[1:]))]},open(os.path.join(root,"MANIFEST.json"),"w"),indent=1)
from collections import Counter
print(len(C),Counter(v["status"] for v in C.values()),"unclaimed:",missing)
