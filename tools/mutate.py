#!/usr/bin/env python3
"""Apply wrong edits to a scratch copy of the model, rebuild, report which theorems fail.

usage: mutate.py MUTANTS.json OUT.jsonl [first [last]]
MUTANTS.json: list of {"def", "file", "old", "new", "edit", "claim"}; `old` must occur exactly once in `file`
(or give "nth"). Nothing in /verif is changed.
"""
import json, os, re, shutil, subprocess, sys, time

SRC = os.environ.get("MUT_SRC", "/verif/lean")
DST = "/tmp/mut/lean"
PRISTINE = "/tmp/mut/lake"

def theorem_at(path, line):
    ls = open(path).read().split("\n")
    for i in range(min(line, len(ls)) - 1, -1, -1):
        m = re.match(r"\s*(?:@\[[^\]]*\]\s*)?(?:private |protected |noncomputable )*(theorem|lemma|def|abbrev|instance|example|inductive|structure)\b\s*([^\s:({\[]*)", ls[i])
        if m:
            return m.group(2) if m.group(1) != "example" else "example@%d" % (i + 1)
    return "?"

def main():
    muts = json.load(open(sys.argv[1]))
    out = sys.argv[2]
    a = int(sys.argv[3]) if len(sys.argv) > 3 else 0
    b = int(sys.argv[4]) if len(sys.argv) > 4 else len(muts)
    for k in range(a, b):
        m = muts[k]
        shutil.rmtree(DST, ignore_errors=True)
        os.makedirs(DST)
        subprocess.run(["rsync", "-a", "--exclude", ".lake", SRC + "/", DST + "/"], check=True) if shutil.which("rsync") else \
            subprocess.run("cp -r %s/Verif %s/Verif.lean %s/lakefile.toml %s/lake-manifest.json %s/" % (SRC, SRC, SRC, SRC, DST), shell=True, check=True)
        subprocess.run(["cp", "-a", PRISTINE, DST + "/.lake"], check=True)
        for e in m.get("edits", [m]):
            p = os.path.join(DST, "Verif", e["file"])
            t = open(p).read()
            n = t.count(e["old"])
            if n != 1:
                print("mutant", k, "old text occurs", n, "times"); break
            open(p, "w").write(t.replace(e["old"], e["new"]))
        else:
            t0 = time.time()
            r = subprocess.run(["lake", "build"], cwd=DST, capture_output=True, text=True)
            txt = r.stdout + r.stderr
            fails = []
            for f, l in re.findall(r"error: (Verif/\S+?\.lean):(\d+):", txt):
                x = f[6:-5].replace("/", ".") + ":" + theorem_at(os.path.join(DST, f), int(l))
                if x not in fails: fails.append(x)
            mods = re.findall(r"^- (Verif\S*)", txt, re.M)
            rec = {"k": k, "definition": m["def"], "edit": m["edit"], "claim": m["claim"], "ok": r.returncode == 0,
                   "fails": fails, "modules": mods, "secs": round(time.time() - t0)}
            open(out, "a").write(json.dumps(rec) + "\n")
            print(k, m["def"], "|", m["edit"], "|", "SURVIVED" if rec["ok"] else fails[:6], rec["secs"], "s", flush=True)

main()
