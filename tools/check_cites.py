"""List every `file.py:a-b` citation in the Lean files and the Python `def`s it covers.
Exits non-zero if a range lies outside its file or covers no part of a function or class."""
import ast, glob, os, re, sys
src = {os.path.basename(p): p for p in glob.glob("/repo/extra/**/*.py", recursive=True)}
bad = 0
for lean in sorted(glob.glob("/verif/lean/**/*.lean", recursive=True)):
    if "/.lake/" in lean: continue
    text = open(lean).read()
    for m in re.finditer(r"(\w+\.py)[: ]+(\d+)(?:-(\d+))?", text):
        f, a, b = m[1], int(m[2]), int(m[3] or m[2])
        if f not in src: print("UNKNOWN FILE", lean, m[0]); bad += 1; continue
        code = open(src[f]).read(); n = code.count("\n") + 1
        names = [d.name for d in ast.walk(ast.parse(code))
                 if isinstance(d, (ast.FunctionDef, ast.ClassDef)) and d.lineno <= b and d.end_lineno >= a]
        line = text.count("\n", 0, m.start()) + 1
        ok = a <= b <= n and names
        bad += not ok
        print("ok " if ok else "BAD", f"{os.path.basename(lean)}:{line}", m[0], ",".join(names))
sys.exit(bad > 0)
