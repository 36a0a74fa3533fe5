"""Lists the functions of /repo/arroba that no comment in lean/Verif cites."""
import ast
import os
import re

ROOT = os.path.join(os.path.dirname(__file__), '..', 'lean', 'Verif')
REPO = '/repo/arroba'
cited = {}
for d, _, files in os.walk(ROOT):
    if os.path.basename(d) == 'Props':
        continue
    for f in files:
        text = open(os.path.join(d, f)).read()
        default = re.search(r'Model of .*?`arroba/(\w+\.py)`', text)
        for comment in re.findall(r'/-.*?-/|--.*?$', text, re.S | re.M):
            cur = default and default.group(1)
            for m in re.finditer(r'(\w+\.py)|(?<![\w.])(\d+)(?:[-–](\d+))?', comment):
                if m.group(1):
                    cur = m.group(1)
                elif cur:
                    a = int(m.group(2))
                    cited.setdefault(cur, set()).update(range(a, int(m.group(3) or a) + 1))
for f in sorted(os.listdir(REPO)):
    if not f.endswith('.py'):
        continue
    lines = cited.get(f, set())
    for node in ast.walk(ast.parse(open(os.path.join(REPO, f)).read())):
        if isinstance(node, ast.FunctionDef):
            body = node.body[1:] if isinstance(node.body[0], ast.Expr) and len(node.body) > 1 else node.body
            want = set(range(body[0].lineno, node.end_lineno + 1))
            got = want & lines
            if len(got) < len(want):
                print(f'{f} {node.name} {node.lineno}-{node.end_lineno}: {len(got)} of {len(want)} lines cited')
