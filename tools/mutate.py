#!/usr/bin/env python3
"""Mutation testing.  usage: mutate.py batch.py   (batch.py defines MUTS: list of dicts
 id, file, old, new, defn, edit, claim).  Works in /tmp/scratch, appends to /verif/seeded/LOG.jsonl."""
import sys, os, re, json, subprocess, shutil
SC="/tmp/scratch/lean"; SRC="/verif/lean"; LOG="/verif/seeded/LOG.jsonl"
def sync():
    os.makedirs(SC,exist_ok=True)
    subprocess.run(["rsync","-a","--delete",SRC+"/",SC+"/"],check=True) if shutil.which("rsync") else \
      (shutil.rmtree(SC,ignore_errors=True), subprocess.run(["cp","-a",SRC,SC],check=True))
def build():
    r=subprocess.run(["lake","build"],cwd=SC,capture_output=True,text=True)
    return r.returncode, r.stdout+r.stderr
def thm_at(f,line):
    L=open(f).read().split("\n")
    for i in range(min(line,len(L))-1,-1,-1):
        m=re.match(r"^(?:@\[[^\]]*\] ?)?(?:noncomputable |private )*(theorem|lemma|example|def|instance)\b ?([\w.']*)",L[i])
        if m: return m.group(2) or "example"
    return "?"
def main():
    ns={}; exec(open(sys.argv[1]).read(),ns)
    sync()
    for m in ns["MUTS"]:
        p=os.path.join(SC,"Verif",m["file"]); s=open(p).read(); orig=s
        if s.count(m["old"])<1: print("NOT FOUND",m["id"]); continue
        n=m.get("nth",0); parts=s.split(m["old"])
        s=m["old"].join(parts[:n+1])+m["new"]+m["old"].join(parts[n+1:])
        open(p,"w").write(s)
        rc,out=build()
        failed={}
        for mm in re.finditer(r"^error: (Verif/[\w/]+\.lean):(\d+):",out,re.M):
            f=os.path.join(SC,mm.group(1)); failed.setdefault(mm.group(1),[])
            t=thm_at(f,int(mm.group(2)))
            if t not in failed[mm.group(1)]: failed[mm.group(1)].append(t)
        thms=[t for v in failed.values() for t in v]
        open(p,"w").write(orig)
        rec=dict(id=m["id"],definition=m["defn"],edit=m["edit"],claim=m["claim"],theorems_failed=thms,
                 caught=bool(thms),theorems_tightened=m.get("tightened",[]))
        print(json.dumps(rec,ensure_ascii=False)[:600],flush=True)
        open("/tmp/mut_results.jsonl","a").write(json.dumps(rec,ensure_ascii=False)+"\n")
        if thms: open(LOG,"a").write(json.dumps(rec,ensure_ascii=False)+"\n")
        else: print("*** SURVIVED",m["id"],flush=True)
main()
