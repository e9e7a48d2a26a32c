#!/usr/bin/env python3
"""Check the citations of the model: every `file.go a-b` must exist, and when the comment names a Go function or C
function just before the citation, the lines must be (within) that function."""
import re, os, glob, sys
repo = '/repo'
files = {}
for root, _, fs in os.walk(repo):
    for f in fs:
        if f.endswith(('.go', '.c', '.h')):
            files.setdefault(f, []).append(os.path.join(root, f))
def bounds(path):
    L = open(path, errors='replace').read().split('\n')
    out, cur = [], None
    for i, l in enumerate(L, 1):
        m = re.match(r'func (?:\([^)]*\) )?(\w+)', l) or re.match(r'(?:static\s+)?(?:__always_inline\s+)?[\w\s\*]*?\b(\w+)\(.*\)?\s*$', l) if path.endswith('.c') or path.endswith('.h') else re.match(r'func (?:\([^)]*\) )?(\w+)', l)
        if m and not l.startswith((' ', '\t', '}', '#')): cur = (m.group(1), i)
        if l.startswith('}') and cur:
            out.append((cur[0], cur[1], i)); cur = None
    return out, len(L)
bad = 0
for lean in sorted(glob.glob(os.path.join(os.path.dirname(__file__), '../lean/Verif/**/*.lean'), recursive=True)):
    s = open(lean).read()
    for m in re.finditer(r'(?:`([\w.]+)`[^`\n]{0,30}?\(?)?(?:[\w/]*/)?([\w]+\.(?:go|c|h)) (\d+)(?:-(\d+))?', s):
        name, f, a, b = m.group(1), m.group(2), int(m.group(3)), int(m.group(4) or m.group(3))
        line = s.count('\n', 0, m.start()) + 1
        if f not in files: 
            print(f'{lean}:{line}: no file {f}'); bad += 1; continue
        ok = False; msgs = []
        for p in files[f]:
            bs, n = bounds(p)
            if b > n: msgs.append(f'only {n} lines'); continue
            if name:
                nm = name.split('.')[-1]
                c = [x for x in bs if x[0] == nm]
                if c and not any(x[1] <= a and b <= x[2] for x in c):
                    msgs.append(f'{nm} is at {[(x[1],x[2]) for x in c]}'); continue
            ok = True
        if not ok:
            print(f'{os.path.relpath(lean)}:{line}: {m.group(0)!r}: {msgs}'); bad += 1
print(bad, 'problems')
