#!/usr/bin/env python3
"""Automatic mutation sweep: sweep.py N SEED FILE... : up to N random operator mutations in each Model/Spec file given
(relative to lean/Verif), built in a scratch copy (/tmp/sw).  One line per mutant to /tmp/sw/out.jsonl.
A mutant is "killed" if a proof fails which is not the evaluation of a sample (decide), "sample" if only such fail,
"type" if the model itself does not compile, else "SURVIVED"."""
import json, os, random, re, subprocess, sys, signal
sys.path.insert(0, "/verif/tools")
SRC, DST = "/verif/lean", "/tmp/sw/lean"
OPS = [(" ≤ ", " < "), (" < ", " ≤ "), (" == ", " != "), (" != ", " == "), (" ≠ ", " = "), (" && ", " || "), (" || ", " && "),
  (" ∧ ", " ∨ "), (" ∨ ", " ∧ "), ("true", "false"), ("false", "true"), (" + 1", ""), (" + 1", " + 2"), (" - 1", ""), (".take ", ".drop "),
  (".drop ", ".take "), (".dropLast", ""), (".reverse", ""), ("!(", "("), (".isSome", ".isNone"), (".isNone", ".isSome"), (".isEmpty", ".isEmpty.not"),
  (".any ", ".all "), (".all ", ".any "), (".head?", ".getLast?"), (".getLast?", ".head?"), (".1", ".2"), (".2", ".1"), ("¬ ", "")]
def sites(text):
    out = []; depth = 0; inside = None; pos = 0; arms = {}
    for line in text.split("\n"):
        code = line
        if depth == 0:
            m = re.match(r"(?:@\[.*\] )?(?:private )?(def|abbrev|theorem|example|lemma|inductive|structure|instance|variable|namespace|section|end|open|set_option|import)\b\s*(\S*)", line)
            if m: inside = m.group(2) if m.group(1) in ("def", "abbrev") else None
        # comments
        i = 0; mask = []
        while i < len(code):
            if code.startswith("/-", i): depth += 1; mask.append((i, i+2)); i += 2; continue
            if code.startswith("-/", i) and depth: depth -= 1; mask.append((i, i+2)); i += 2; continue
            if depth == 0 and code.startswith("--", i): mask.append((i, len(code))); break
            if depth: mask.append((i, i+1))
            i += 1
        masked = set(k for a, b in mask for k in range(a, b))
        if inside:
            def ok(a, b): return not any(k in masked for k in range(a, b))
            for o, n in OPS:
                for m in re.finditer(re.escape(o), code):
                    if not ok(*m.span()): continue
                    if o[0].isalpha() and (m.start() > 0 and (code[m.start()-1].isalnum() or code[m.start()-1] in "._") or m.end() < len(code) and (code[m.end()].isalnum() or code[m.end()] == "'")): continue
                    if o in (".1", ".2") and m.end() < len(code) and code[m.end()].isdigit(): continue
                    if o in (".take ", ".drop ") : pass
                    out.append((pos + m.start(), pos + m.end(), n, inside))
            for m in re.finditer(r"(?<![\w.])(\d+)(?![\w.])", code):
                if ok(*m.span()): out.append((pos + m.start(), pos + m.end(), str(int(m.group(1)) + 1), inside))
            for m in re.finditer(r"\bif (?!let)([^:]*?) then", code):
                if ok(*m.span()) and " if " not in m.group(1): out.append((pos + m.start(), pos + m.end(), "if ¬ (" + m.group(1) + ") then", inside))
            m = re.match(r"(\s*)\| (.*?) => (.*\S)\s*$", code)
            if m and ok(0, len(code)):
                key = (inside, m.group(1))
                if key in arms:
                    a, b, rhs = arms[key]
                    if rhs != m.group(3):
                        out.append((pos + m.start(3), pos + m.end(3), rhs, inside))
                        out.append((a, b, m.group(3), inside))
                arms[key] = (pos + m.start(3), pos + m.end(3), m.group(3))
        pos += len(line) + 1
    return out
def build():
    p = subprocess.Popen(["taskset", "-c", os.environ.get("SWEEP_CPUS", "2,3"), "nice", "-n", "15", "lake", "build"], cwd=DST, stdout=subprocess.PIPE, stderr=subprocess.STDOUT, text=True, start_new_session=True)
    errs = []; lines = []
    for l in p.stdout:
        lines.append(l)
        m = re.match(r"error: (Verif/\S+?\.lean):(\d+):\d+:? ?(.*)", l)
        if m:
            errs.append((m.group(1), int(m.group(2)), m.group(3)))
            f = m.group(1)
            if "/Model/" in f or "/Spec/" in f: kind = "type"
            elif "decide" in m.group(3) or "Type mismatch" in m.group(3) and "/Props/" in f: kind = None
            else: kind = "killed"
            if kind:
                os.killpg(p.pid, signal.SIGKILL); p.wait(); return kind, errs[-1]
    p.wait()
    if errs: return "sample", errs[0]
    if p.returncode: return "error", "".join(lines)[-300:]
    return "SURVIVED", None
def main():
    n, seed = int(sys.argv[1]), int(sys.argv[2])
    os.makedirs(DST, exist_ok=True)
    if os.path.exists(DST): subprocess.run(["rm", "-rf", DST])
    subprocess.run(["cp", "-a", SRC, DST], check=True)
    done = set()
    if os.path.exists("/tmp/sw/out.jsonl"):
        for l in open("/tmp/sw/out.jsonl"):
            d = json.loads(l); done.add((d["file"], d["at"], d["new"]))
    for f in sys.argv[3:]:
        path = os.path.join(DST, "Verif", f)
        orig = open(os.path.join(SRC, "Verif", f)).read()
        ss = sites(orig); random.Random(seed).shuffle(ss)
        for a, b, new, d in ss[:n]:
            if (f, a, new) in done: continue
            open(path, "w").write(orig[:a] + new + orig[b:])
            kind, err = build()
            ln = orig.count("\n", 0, a) + 1
            with open("/tmp/sw/out.jsonl", "a") as g:
                g.write(json.dumps({"file": f, "def": d, "at": a, "line": ln, "old": orig[a:b], "new": new, "kind": kind, "err": err, "text": orig.split("\n")[ln-1].strip()}, ensure_ascii=False) + "\n")
        open(path, "w").write(orig)
if __name__ == "__main__": main()
