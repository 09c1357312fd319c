#!/usr/bin/env python3
"""Writes MANIFEST.json. Status and notes per property; theorem names are checked against the sources."""
import json,re,glob
P="proved"; Q="partial"
claims={}
def c(pid,status,thms,note):
    claims[pid]={"property":pid,"status":status,"theorems":["Protoast.Props."+t for t in thms.split()],"note":note}
c("C01",P,"C01_resolves_innermost C01_fails_iff C01_branch_type C01_field_type","Resolver: success and failure characterised for every set of names, scope and name; lifted to Type of branches and fields in every reachable state.")
c("C02",P,"C02_absolute_verbatim C02_branch_type","")
c("C03",P,"C03_scope_dot_irrelevant C03_file_options","")
c("C04",P,"C04_agrees_with_protoc","protoc's rule is the separate specification Spec/Protoc.lean.")
c("C05",Q,"C05_false C05_partial","False of the code: a field named like its type shadows it and Type panics (C05_false). C05_partial: holds when the closest declaration of the name is a type.")
exec(open('/verif/tools/manifest_more.py').read()) if glob.glob('/verif/tools/manifest_more.py') else None
src="".join(open(f).read() for f in glob.glob('/verif/lean/Verif/Props/*.lean'))
names=set(re.findall(r'^theorem (\S+)',src,re.M))
used=set()
for x in claims.values():
    for t in x["theorems"]:
        n=t.replace("Protoast.Props.","")
        used.add(n)
        if n not in names: print("MISSING",t)
for n in sorted(names-used):
    if re.match(r'C\d\d',n): print("UNUSED",n)
json.dump({"claims":[claims[k] for k in sorted(claims)]},open('/verif/MANIFEST.json','w'),indent=1,ensure_ascii=False)
