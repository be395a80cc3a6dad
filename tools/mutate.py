#!/usr/bin/env python3
"""Seeded-bug runner. usage: mutate.py muts.json [target]
Each mutation: {file, definition, old, new, claim}. Works on a scratch copy in /tmp/mut, builds, records which
theorems no longer check, appends to seeded/LOG.jsonl."""
import json, os, re, subprocess, sys, shutil
SRC="/tmp/mutsrc/lean"; DST="/tmp/mut/lean"; LOG="/verif/seeded/LOG.jsonl"
def sync():
    os.makedirs(DST, exist_ok=True)
    subprocess.run(["rsync","-a","--delete",SRC+"/",DST+"/"],check=True) if shutil.which("rsync") else subprocess.run("rm -rf %s && cp -a %s %s"%(DST,SRC,DST),shell=True,check=True)
def enclosing(path,line):
    L=open(path).read().split("\n")
    for i in range(min(line,len(L))-1,-1,-1):
        m=re.match(r"\s*(?:@\[[^\]]*\]\s*)?(?:private\s+)?(theorem|lemma|example|def|instance)\b\s*([^\s:({\[]*)",L[i])
        if m: return (m.group(2) or m.group(1))
    return "?"
def build(target):
    p=subprocess.run(["timeout","1500","lake","build",target],cwd=DST,capture_output=True,text=True)
    out=p.stdout+p.stderr
    fails=[]
    for m in re.finditer(r"error: (Verif/[\w/]+\.lean):(\d+):",out):
        n=enclosing(os.path.join(DST,m.group(1)),int(m.group(2)))
        s=m.group(1)+":"+n
        if s not in fails: fails.append(s)
    return p.returncode,fails,out
if __name__=="__main__":
    # freeze the sources, so that /verif may be edited while the mutations run
    subprocess.run("mkdir -p /tmp/mutsrc && rsync -a --delete /verif/lean/ /tmp/mutsrc/lean/ || (rm -rf /tmp/mutsrc/lean && cp -a /verif/lean /tmp/mutsrc/lean)",shell=True,check=True)
    muts=json.load(open(sys.argv[1])); target=sys.argv[2] if len(sys.argv)>2 else "Verif"
    for m in muts:
        sync()
        f=os.path.join(DST,m["file"]); s=open(f).read()
        k=s.count(m["old"])
        if k<1: print("NOT FOUND",m["definition"],m["old"]); continue
        if k>1 and not m.get("multi"):
            # restrict to definition body
            i=s.find("def "+m["definition"].split(".")[-1]); j=s.find(m["old"],i)
            if i<0 or j<0: print("AMBIGUOUS",m); continue
            s=s[:j]+m["new"]+s[j+len(m["old"]):]
        else: s=s.replace(m["old"],m["new"])
        open(f,"w").write(s)
        rc,fails,out=build(m.get("target",target))
        rec=dict(definition=m["definition"],edit="%s  =>  %s"%(m["old"],m["new"]),claim_broken=m["claim"],failed=fails,survived=(rc==0),tightened=m.get("tightened",[]))
        print(json.dumps(rec)[:400],flush=True)
        open(LOG,"a").write(json.dumps(rec,ensure_ascii=False)+"\n")
        if rc!=0 and not fails: print(out[-800:])
