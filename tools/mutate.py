#!/usr/bin/env python3
"""Usage: mutate.py FILE.json : a list of {"file","definition","old","new","claim","targets"(optional)}.
Each mutant is built in a scratch copy (/tmp/mut); appends to /verif/seeded/LOG.jsonl.  Mutants that survive
are printed with SURVIVED."""
import json, os, re, shutil, subprocess, sys
SRC, DST = "/verif/lean", "/tmp/mut/lean"
def sync():
    os.makedirs(DST, exist_ok=True)
    subprocess.run(["rsync", "-a", "--delete", SRC + "/", DST + "/"], check=False) if shutil.which("rsync") else (
        shutil.rmtree(DST), shutil.copytree(SRC, DST, symlinks=True))
def enclosing(path, line):
    name = "?"; ns = []
    for i, l in enumerate(open(path), 1):
        m = re.match(r"\s*namespace (\S+)", l)
        if m: ns.append(m.group(1))
        m = re.match(r"\s*end (\S+)", l)
        if m and ns and ns[-1] == m.group(1): ns.pop()
        m = re.match(r"(?:@\[.*\] )?(?:private )?(theorem|def|example|structure|inductive|instance)\b\s*(\S*)", l)
        if m:
            if i > line: break
            name = (m.group(1) + " " if m.group(1) != "theorem" else "") + ".".join(ns + [m.group(2)])
        if i > line: break
    return name
def main():
    muts = json.load(open(sys.argv[1]))
    sync()
    for m in muts:
        p = os.path.join(DST, "Verif", m["file"])
        orig = open(p).read()
        if orig.count(m["old"]) != 1:
            print("BAD PATTERN", orig.count(m["old"]), m["definition"], m["old"]); continue
        open(p, "w").write(orig.replace(m["old"], m["new"]))
        r = subprocess.run(["lake", "build"] + m.get("targets", []), cwd=DST, capture_output=True, text=True)
        out = r.stdout + r.stderr
        failed = []
        for f, ln in re.findall(r"error: (Verif/\S+?\.lean):(\d+):", out):
            n = enclosing(os.path.join(DST, f), int(ln))
            if n not in failed: failed.append(n)
        mods = sorted(set(re.findall(r"^- (Verif\S*)", out, re.M)))
        open(p, "w").write(orig)
        print(("killed  " if failed or mods else "SURVIVED"), m["definition"], "|", m["claim"], "|", failed[:4], flush=True)
        if failed or mods or "-n" not in sys.argv:
            with open("/verif/seeded/LOG.jsonl", "a") as g:
                g.write(json.dumps({"definition": m["definition"], "edit": m["old"] + "  =>  " + m["new"], "claim_broken": m["claim"],
                  "theorems_failed": failed, "modules_failed": mods, "theorems_tightened": m.get("tightened", [])}) + "\n")
main()
