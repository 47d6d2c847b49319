#!/usr/bin/env python3
"""Which lines of /repo/scicpp are cited by a definition of the model (lean/Verif/Model/*.lean).
Writes COVERAGE.md: per file, the cited and the not cited code lines (comments, blank lines,
includes, braces and preprocessor lines are not counted)."""
import re, glob, os, collections
REPO = '/repo'
files = [os.path.relpath(f, REPO) for e in ('hpp',) for f in glob.glob(REPO + '/scicpp/**/*.' + e, recursive=True)]
base = collections.defaultdict(list)
for f in files: base[os.path.basename(f)].append(f)
cited = collections.defaultdict(set)
pat = re.compile(r'((?:[\w{},]+/)*[\w]+\.hpp)\s*:?((?:\s*\d+(?:-\d+)?(?:,(?=\s*\d)|(?=\D|$)))*)')
for lf in glob.glob(os.path.dirname(os.path.abspath(__file__)) + '/../lean/Verif/Model/*.lean'):
    txt = open(lf).read()
    for com in re.findall(r'/-.*?-/', txt, re.S):
        com = re.sub(r'\s+', ' ', com)
        last = None
        toks = re.findall(r'(?:[\w]+/)*\w+\.hpp|\d+-\d+|\d+', com)
        for t in toks:
            if t.endswith('.hpp'):
                if t in files: last = t
                else:
                    c = base.get(os.path.basename(t), [])
                    c = [x for x in c if x.endswith(t)]
                    last = c[0] if len(c) == 1 else (last if last and last.endswith(t) else (c[0] if c else None))
            elif last:
                a, *b = t.split('-')
                a = int(a); b = int(b[0]) if b else a
                if b - a < 400 and a > 0: cited[last].update(range(a, b + 1))
def code(l):
    s = l.strip()
    return bool(s) and not s.startswith(('//', '#', '*', '/*')) and s not in ('{', '}', '};', '});', 'public:', 'private:', 'template <typename T>') \
        and not re.match(r'^(namespace|} // namespace|using namespace|template|static_assert)', s)
rows = []; tot = cov = 0; detail = []
for f in sorted(files):
    lines = open(os.path.join(REPO, f), errors='replace').read().split('\n')
    cl = [i + 1 for i, l in enumerate(lines) if code(l)]
    c = [i for i in cl if i in cited[f]]
    if not cl: continue
    tot += len(cl); cov += len(c)
    un = [i for i in cl if i not in cited[f]]
    rng = []
    for i in un:
        if rng and i - rng[-1][1] <= 3: rng[-1][1] = i
        else: rng.append([i, i])
    rows.append(f"| {f} | {len(cl)} | {len(c)} | " + ", ".join(f"{a}-{b}" if a != b else str(a) for a, b in rng) + " |")
out = os.path.join(os.path.dirname(os.path.abspath(__file__)), '..', 'COVERAGE.md')
open(out, 'w').write("# Lines of /repo cited by definitions of the model\n\nGenerated by tools/coverage.py. A line is cited when the comment of a model definition names it.\nNot cited lines are mostly declarations, forwarding overloads and type traits; see DESIGN.md.\n\n"
  f"Total code lines {tot}, cited {cov}.\n\n| file | code lines | cited | not cited |\n|---|---|---|---|\n" + "\n".join(rows) + "\n")
print(tot, cov)
