"""Corrects `N-M `name`` citations in the model's comments: where the cited lines do not meet the definition of that name (in the Python file of that name
which is nearest), the lines are replaced by those of the definition."""
import re, glob, os, ast
src = {}
for f in glob.glob('/repo/src/**/*.py', recursive=True):
    for n in ast.walk(ast.parse(open(f).read())):
        if isinstance(n, (ast.FunctionDef, ast.ClassDef)):
            src.setdefault(n.name, []).append((os.path.basename(f), n.lineno, n.end_lineno))
for f in sorted(glob.glob("lean/Verif/Model/*.lean")):
    s = open(f).read()
    def doc(d):
        def cite(m):
            a = int(m.group(1)); b = int(m.group(2) or a); n = m.group(3).split('.')[-1]
            if n in src and not any(l <= b and a <= e for _, l, e in src[n]):
                _, l, e = min(src[n], key=lambda x: abs(x[1] - a))
                if abs(l - a) < 60:
                    print(os.path.basename(f), m.group(0), "->", l, e)
                    return "%d-%d `%s`" % (l, e, m.group(3))
                print("??", f, m.group(0))
            return m.group(0)
        return re.sub(r"(\d+)(?:-(\d+))?,? `([\w.]+)`", cite, d.group(0))
    t = re.sub(r"/-[-!]?(.*?)-/", doc, s, flags=re.S)
    open(f, "w").write(t)
