#!/usr/bin/env python3
"""Mutation tests of the theorems.

usage: mutate.py MUTANTS.json [first [last]]

Every mutant {"claim", "file", "def", "old", "new", "breaks"} is applied to a scratch copy of lean/ outside the
repository, which is then rebuilt.  One line per mutant is appended to seeded/LOG.jsonl.  Modules which depend on a
failing one are not built, so only the first theorems to fail are listed.
"""
import fcntl, json, os, re, shutil, subprocess, sys, time
ROOT = os.path.abspath(os.path.join(os.path.dirname(__file__), ".."))
SCRATCH = "/tmp/mut/lean"
LOCK = "/tmp/build.lock"  # one build at a time

def sync():
    os.makedirs(SCRATCH, exist_ok=True)
    subprocess.run(["rm", "-rf", SCRATCH], check=True)
    # MUTBASE: a built checkout to mutate instead of the working tree
    subprocess.run(["cp", "-a", os.environ.get("MUTBASE", ROOT) + "/lean", SCRATCH], check=True)

def enclosing(path, line):
    name = "?"
    with open(path) as f:
        for i, l in enumerate(f, 1):
            if i > line:
                break
            m = re.match(r"(?:private |protected |noncomputable )*(theorem|def|lemma|example|instance|abbrev|structure)\b\s*([^\s:({\[]*)", l)
            if m:
                name = m.group(2) or m.group(1)
    return name

def main():
    muts = json.load(open(sys.argv[1]))
    first = int(sys.argv[2]) if len(sys.argv) > 2 else 0
    last = int(sys.argv[3]) if len(sys.argv) > 3 else len(muts)
    for k, m in list(enumerate(muts))[first:last]:
        lock = open(LOCK, "w")
        fcntl.flock(lock, fcntl.LOCK_EX)
        sync()
        path = f"{SCRATCH}/Verif/{m['file']}"
        s = open(path).read()
        if s.count(m["old"]) < 1:
            print(k, "NO MATCH", m["def"], flush=True); lock.close(); continue
        open(path, "w").write(s.replace(m["old"], m["new"], 1))
        t = time.time()
        r = subprocess.run(["lake", "build"], cwd=SCRATCH, capture_output=True, text=True,
                           env=dict(os.environ, LEAN_NUM_THREADS=os.environ.get("MUTJ", "3")))
        out = r.stdout + r.stderr
        failed = []
        model_broken = False
        for f, l in re.findall(r"error: (?:\./)?(Verif/[^:]+\.lean):(\d+):", out):
            n = f[6:-5].replace("/", ".") + ":" + enclosing(f"{SCRATCH}/{f}", int(l))
            if f == "Verif/" + m["file"]:
                model_broken = True
            if n not in failed:
                failed.append(n)
        status = "SURVIVED" if r.returncode == 0 else ("MODEL" if model_broken else "killed")
        lock.close()
        time.sleep(2)  # let others have the lock
        print(k, status, m["claim"], m["def"], failed[:6], f"{time.time()-t:.0f}s", flush=True)
        with open(ROOT + "/seeded/LOG.jsonl", "a") as f:
            f.write(json.dumps({"definition": m["def"], "file": m["file"], "edit": m["old"] + "  ==>  " + m["new"],
                "claim": m["claim"], "breaks": m["breaks"], "failed": failed,
                "result": status.lower(), "tightened": m.get("tightened", [])}, ensure_ascii=False) + "\n")

main()
