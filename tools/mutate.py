#!/usr/bin/env python3
"""Test the theorems against wrong programs.

usage: mutate.py MUTATIONS.json LOG.jsonl   (run in /verif; builds in a scratch copy under /tmp/mut)

Every mutation is {"id","definition","file","old","new","claim"}: in a copy of lean/ the text `old` of the file is replaced by `new`
and everything is rebuilt.  One line per mutation is appended to the log: the declarations whose proofs failed, the claimed theorems that
are in or above a module with a failure, and whether the mutation survived.
"""
import functools, json, os, re, shutil, signal, subprocess, sys, time
LIMIT = 240
root = os.path.dirname(os.path.dirname(os.path.abspath(__file__)))
base, work = "/tmp/mut/base", "/tmp/mut/w"

def modules(d):
    out = {}
    for p, _, fs in os.walk(os.path.join(d, "Verif")):
        for f in fs:
            if f.endswith(".lean"):
                path = os.path.join(p, f)
                name = os.path.relpath(path, d)[:-5].replace("/", ".")
                s = open(path).read()
                out[name] = (path, re.findall(r"^import (Verif\.\S+)", s, re.M), re.findall(r"^theorem (C\d+_\w+)", s, re.M))
    return out

def enclosing(path, line):
    ls = open(path).read().split("\n")
    for i in range(min(line, len(ls)) - 1, -1, -1):
        m = re.match(r"(?:@\[.*\] )?(?:private |noncomputable |protected )*(theorem|lemma|def|example|instance|structure|abbrev)\b\s*(\S*)", ls[i])
        if m:
            return (m.group(2) if m.group(1) != "example" else "example") or m.group(1)
    return "?"

def main():
    muts = json.load(open(sys.argv[1]))
    log = sys.argv[2]
    done = set()
    if os.path.exists(log):
        done = {json.loads(l).get("id") for l in open(log) if l.strip()}
    claimed = {t for c in json.load(open(os.path.join(root, "MANIFEST.json")))["claims"] for t in c["theorems"]}
    for m in muts:
        if m["id"] in done:
            continue
        shutil.rmtree(work, ignore_errors=True)
        subprocess.run(["cp", "-a", base, work], check=True)
        f = os.path.join(work, m["file"])
        s = open(f).read()
        if s.count(m["old"]) < 1:
            print(m["id"], "PATTERN NOT FOUND"); continue
        open(f, "w").write(s.replace(m["old"], m["new"], 1 if not m.get("all") else -1))
        # a build with a failure is cut after LIMIT seconds; a build without one runs to its end
        with open("/tmp/mut/build.txt", "w") as h:
            r = subprocess.Popen(["nice", "lake", "build"], cwd=work, stdout=h, stderr=subprocess.STDOUT, start_new_session=True)
            start = time.time()
            while r.poll() is None:
                time.sleep(2)
                if time.time() - start > LIMIT and re.search(r"^error: Verif/", open("/tmp/mut/build.txt").read(), re.M):
                    os.killpg(r.pid, signal.SIGKILL)
                    r.wait()
        out = open("/tmp/mut/build.txt").read()
        fails, bad = [], set()
        for mm in re.finditer(r"^error: (Verif/\S+\.lean):(\d+):", out, re.M):
            d = enclosing(os.path.join(work, mm.group(1)), int(mm.group(2)))
            bad.add(mm.group(1)[:-5].replace("/", "."))
            if d not in fails:
                fails.append(d)
        mods = modules(work)
        blocked = set()
        @functools.cache
        def dep(n):
            return n in bad or any(dep(i) for i in mods[n][1] if i in mods)
        for n in mods:
            if n not in bad and dep(n):
                blocked |= {t for t in mods[n][2] if t in claimed}
        e = {"id": m["id"], "definition": m["definition"], "edit": m["old"] + "  ->  " + m["new"], "claim": m["claim"],
             "theorems_failed": fails, "not_provable_any_more": sorted(blocked | {t for t in fails if t in claimed}),
             "survived": r.returncode == 0, "theorems_tightened": []}
        model_broken = any(b.startswith("Verif.Model") for b in bad)
        if model_broken:
            print(m["id"], "MODEL DOES NOT COMPILE", out[:1500]); continue
        with open(log, "a") as h:
            h.write(json.dumps(e, ensure_ascii=False) + "\n")
        print(m["id"], "SURVIVED" if e["survived"] else "failed: " + " ".join(fails[:6]), flush=True)

main()
