import json,subprocess,re,glob,sys
# registry: property -> (status, [theorems], note)
exec(open('/verif/tools/registry.py').read())
names=set()
for f in glob.glob('/verif/lean/Verif/**/*.lean',recursive=True):
    for l in open(f):
        m=re.match(r'\s*(?:private |protected )?theorem (\S+)',l)
        if m: names.add(m.group(1))
out=[]
for p,(st,ths,note) in R.items():
    for t in ths:
        if t.split('.')[-1] not in names: print("MISSING",p,t)
    out.append({"property":p,"status":st,"theorems":["JC."+t for t in ths],"note":note})
json.dump({"claims":out},open('/verif/MANIFEST.json','w'),indent=1)
# axioms check file
with open('/tmp/Ax.lean','w') as f:
    f.write("import Verif\n")
    for c in out:
        for t in c["theorems"]: f.write("#print axioms %s\n"%t)
