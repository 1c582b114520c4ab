"""Writes notes/model-index.md: every definition of the model with the comment that says which code it models; and notes/axioms.md from the output of
#print axioms (given as file)."""
import re, sys, glob, os
out = ["# Definitions of the model\n", "Generated by tools/mkindex.py from the comments in lean/Verif/Model.\n"]
for f in sorted(glob.glob("lean/Verif/Model/*.lean")):
    s = open(f).read()
    head = re.search(r"/-\n?(.*?)-/", s, re.S)
    out.append("\n## " + os.path.basename(f) + "\n")
    if head:
        out.append(" ".join(head.group(1).split()) + "\n")
    for m in re.finditer(r"(?:/--(?P<doc>(?:(?!-/).)*?)-/\s*)?^(?:@\[[^\]]*\]\s*)?(?P<kind>def|structure|inductive|abbrev) (?P<name>[^\s:({\[]+)", s, re.S | re.M):
        doc = " ".join((m.group("doc") or "").split())
        out.append("* `%s` %s" % (m.group("name"), doc))
open("notes/model-index.md", "w").write("\n".join(out) + "\n")
if len(sys.argv) > 1:
    t = open(sys.argv[1]).read()
    rows = re.findall(r"'([^']+)' (?:depends on axioms: \[([^\]]*)\]|(does not depend on any axioms))", t)
    open("notes/axioms.md", "w").write("# Axioms of the theorems in MANIFEST.json\n\nOutput of `#print axioms`.\n\n" + "\n".join(
        "* `%s`: %s" % (n, " ".join(a.split()) if a else "none") for n, a, _ in rows) + "\n")
