#!/usr/bin/env python3
"""Seeded-bug runner.  usage: mutate.py LIST.json OUT.jsonl
LIST.json: [{"definition","file","old","new","edit","claim","ids"}].  For each entry a scratch copy of /verif/lean is edited (the text `old`
occurs once in `file` and is replaced by `new`) and built with `lake build`.  `first_errors` are the declarations at which the build fails, `failed` the
theorems of MANIFEST.json whose proof depends on one of them (tools/deps.txt writes the dependencies to /tmp/mut/deps.json).
An optional "also" lists further replacements, in the proofs that restate the definition, so that the build reaches the theorems ("all": every occurrence).
"targets" names the modules to build, if not all.
An entry is reported as WEAK if no theorem of one of the claims `ids` is lost."""
import json, os, re, subprocess, sys
SRC="/verif/lean"; W=os.environ.get("MUTDIR","/tmp/mut/w"); BASE=os.environ.get("MUTBASE","/tmp/mut/base")
def decl(path,line):
    ls=open(path).read().split("\n")
    for k in range(min(line,len(ls))-1,-1,-1):
        m=re.match(r"\s*(?:private |protected |@\[[^\]]*\] ?)*(theorem|lemma|def|example|instance|structure|inductive|abbrev)\b\s*([^\s:({\[]*)",ls[k])
        if m: return m.group(2) or f"{m.group(1)}@{os.path.basename(path)}:{k+1}"
    return f"{os.path.basename(path)}:{line}"
def main():
    muts=json.load(open(sys.argv[1])); out=open(sys.argv[2],"a")
    deps=json.load(open("/tmp/mut/deps.json"))
    claims={c["property"]:c["theorems"] for c in json.load(open("/verif/MANIFEST.json"))["claims"]}
    suffix={}
    for t,l in deps.items():
        for n in l:
            parts=n.split(".")
            for k in range(len(parts)): suffix.setdefault(".".join(parts[k:]),set()).add(t)
    if not os.path.exists(BASE): subprocess.run(["cp","-a",SRC,BASE],check=True)
    for m in muts:
        subprocess.run(["rm","-rf",W],check=True); subprocess.run(["cp","-a",BASE,W],check=True)
        f=f"{W}/Verif/{m['file']}"; t=open(f).read()
        if t.count(m["old"])!=1:
            print("BAD",m["definition"],t.count(m["old"]),m["old"],flush=True); continue
        open(f,"w").write(t.replace(m["old"],m["new"]))
        for a in m.get("also",[]):
            g=f"{W}/Verif/{a['file']}"; t=open(g).read(); assert t.count(a["old"])==1 or a.get("all"),(m["definition"],a); open(g,"w").write(t.replace(a["old"],a["new"]))
        r=subprocess.run(["nice","lake","build"]+m.get("targets",[]),cwd=W,capture_output=True,text=True)
        log=r.stdout+r.stderr
        bad=[]
        for e in re.findall(r"(?m)^error: (?:\./)*(?:.*?/)?(Verif/\S+?\.lean):(\d+):",log):
            d=decl(f"{W}/{e[0]}",int(e[1]))
            if d not in bad: bad.append(d)
        lost=set()
        for d in bad: lost|=suffix.get(d,set())
        weak=[i for i in m["ids"] if not (set(claims[i])&lost)]
        rec={"definition":m["definition"],"file":m["file"],"edit":m["edit"],"claim":", ".join(m["ids"])+": "+m["claim"],"failed":sorted(lost),"first_errors":bad,"tightened":[]}
        if r.returncode==0: rec["built"]=True
        out.write(json.dumps(rec)+"\n"); out.flush()
        print("SURVIVED" if r.returncode==0 else ("WEAK "+",".join(weak) if weak else "killed"),m["definition"],"|",m["edit"],"|",bad[:6],len(lost),flush=True)
main()
