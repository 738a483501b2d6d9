"""Which functions of /repo/pypfopt are cited by the model (run from /verif)."""
import ast, glob, os, re

cited = {}
for f in glob.glob("lean/Verif/Model/*.lean"):
    for name, a, b in re.findall(r"([a-z_]+\.py):(\d+)(?:-(\d+))?", open(f).read()):
        cited.setdefault(name, []).append((int(a), int(b or a), os.path.basename(f)))
for f in sorted(glob.glob("/repo/pypfopt/**/*.py", recursive=True)):
    tree = ast.parse(open(f).read())
    rows = []
    def walk(node, pre):
        for c in ast.iter_child_nodes(node):
            if isinstance(c, ast.ClassDef):
                walk(c, pre + c.name + ".")
            elif isinstance(c, ast.FunctionDef):
                ms = sorted({m for a, b, m in cited.get(os.path.basename(f), []) if a <= c.end_lineno and b >= c.lineno})
                rows.append((pre + c.name, c.lineno, c.end_lineno, ms))
    walk(tree, "")
    for n, a, b, ms in rows:
        print(f"{os.path.relpath(f,'/repo/pypfopt')}:{a}-{b} {n}: {', '.join(ms) or 'NOT CITED'}")
