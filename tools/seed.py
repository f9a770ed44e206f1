"""Seeded-bug experiments: apply one edit to the model in a scratch copy, rebuild, report which theorems fail.
usage: seed.py <mutations.json> ; appends to /verif/seeded/LOG.jsonl.  Entries: def, file, old, new, edit, claim, expect(list of claims)."""
import json,subprocess,sys,re,os,shutil
S="/tmp/seed/lean"
if not os.path.exists(S):
    os.makedirs("/tmp/seed",exist_ok=True)
    subprocess.run(["cp","-r","/verif/lean","/tmp/seed/"],check=True)
subprocess.run("rsync -a --delete --exclude .lake /verif/lean/ /tmp/seed/lean/ 2>/dev/null || (cp -r /verif/lean/Verif /verif/lean/Verif.lean /tmp/seed/lean/)",shell=True)
man=json.load(open("/verif/MANIFEST.json"))["claims"]
thm2claim={}
for c in man:
    for t in c["theorems"]: thm2claim.setdefault(t,[]).append(c["property"])
done=set()
LOG="/verif/seeded/LOG.jsonl"
if os.path.exists(LOG):
    for l in open(LOG):
        if l.strip(): d=json.loads(l); done.add((d["definition"],d["edit"]))
def build():
    return subprocess.run("lake build 2>&1",shell=True,cwd=S,capture_output=True,text=True).stdout
def decls(path):
    r=[];ns=""
    for n,l in enumerate(open(path),1):
        m=re.match(r"namespace (\S+)",l)
        if m: ns=(m.group(1) if m.group(1).startswith("NgsAMG") or not ns.startswith("NgsAMG") else "NgsAMG."+m.group(1))
        m=re.match(r"(?:private |noncomputable |@\[.*?\] )*(theorem|lemma|def|example|instance|structure)\b\s*(\S*)",l)
        if m: r.append((n,m.group(1),(ns+"."+m.group(2)) if m.group(1)!="example" else "example@%d"%n))
    return r
def enclosing(path,line):
    x=[d for d in decls(path) if d[0]<=line]
    return x[-1][2] if x else "?"
for m in json.load(open(sys.argv[1])):
    key=(m["def"],m["edit"])
    if key in done: continue
    f=S+"/Verif/"+m["file"]
    src=open(f).read()
    if src.count(m["old"])<1 or (src.count(m["old"])>1 and not m.get("nth")):
        print("BAD old",key,src.count(m["old"])); continue
    if m.get("nth"):
        parts=src.split(m["old"]); k=m["nth"]
        new=m["old"].join(parts[:k])+m["new"]+m["old"].join(parts[k:])
    else: new=src.replace(m["old"],m["new"])
    open(f,"w").write(new)
    out=build()
    errs=[]
    for x in re.finditer(r"^error: (Verif/\S+\.lean):(\d+):\d+: (.*)$",out,re.M):
        e=(x.group(1),enclosing(S+"/"+x.group(1),int(x.group(2))))
        if e not in errs: errs.append(e)
    files=sorted(set(e[0] for e in errs))
    model_broken=any(x.startswith("Verif/Model") or x.startswith("Verif/Spec") for x in files)
    claims={}
    if not model_broken:
        for fl in files:
            p=S+"/"+fl
            ts=[d[2] for d in decls(p) if d[2] in thm2claim]
            t2=p[:-5]+"_ax.lean"
            open(t2,"w").write(open(p).read()+"\n"+"\n".join("#print axioms "+t for t in ts))
            o=subprocess.run(["lake","env","lean",os.path.relpath(t2,S)],cwd=S,capture_output=True,text=True).stdout
            os.remove(t2)
            for t in ts:
                mm=re.search(r"'"+re.escape(t)+r"' depends on axioms: \[([^\]]*)\]",o)
                if mm and "sorryAx" in mm.group(1): claims[t]=thm2claim[t]
                elif not re.search(re.escape("'"+t+"'"),o): claims[t]=thm2claim[t]
    open(f,"w").write(src)
    rec={"definition":m["def"],"file":"lean/Verif/"+m["file"],"edit":m["edit"],"claim":m["claim"],
         "theorems_failed":[e[1] for e in errs],"property_theorems_failed":sorted(claims),"theorems_tightened":m.get("tightened",[])}
    print(json.dumps(rec)[:600], "MODEL BROKEN" if model_broken else ("" if errs else "SURVIVED"), flush=True)
    if not model_broken and (errs or m.get("note")):
        if m.get("note"): rec["note"]=m["note"]
        open(LOG,"a").write(json.dumps(rec)+"\n")
