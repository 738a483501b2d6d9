"""Check the source citations in the model: `name` (file.py:a-b) must overlap the definition of name."""
import ast
import glob
import os
import re
import sys

REPO = "/repo/pypfopt"
defs, length = {}, {}
for path in glob.glob(REPO + "/**/*.py", recursive=True):
    src = open(path).read()
    base = os.path.basename(path)
    length[base] = max(length.get(base, 0), src.count("\n") + 1)
    for node in ast.walk(ast.parse(src)):
        if isinstance(node, (ast.FunctionDef, ast.ClassDef)):
            defs.setdefault((base, node.name), []).append((node.lineno, node.end_lineno))

bad = total = 0
for path in sorted(glob.glob(os.path.dirname(__file__) + "/../lean/Verif/Model/*.lean")):
    src = open(path).read()
    for m in re.finditer(r"(\w+\.py):(\d+)(?:-(\d+))?", src):
        total += 1
        base, a, b = m.group(1), int(m.group(2)), int(m.group(3) or m.group(2))
        where = "%s:%d" % (os.path.basename(path), src[: m.start()].count("\n") + 1)
        if base not in length or not 1 <= a <= b <= length[base]:
            print(where, "bad range", m.group(0))
            bad += 1
            continue
        before = re.search(r"`_?(\w+)`\s*\($", src[: m.start()][-60:])
        name = before and re.search(r"`(\w+)`", before.group(0)).group(1)
        spans = name and defs.get((base, name))
        if spans and not any(s <= a and b <= e for s, e in spans):
            print(where, name, m.group(0), "defined at", spans)
            bad += 1
print("%d citations, %d bad" % (total, bad))
sys.exit(bad > 0)
