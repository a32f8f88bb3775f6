#!/usr/bin/env python3
"""Which lines of /repo no definition of lean/Verif/Model cites. Citations have the form `File.cpp:12-34, 56`, or a
directory path before the file name. Blank lines, comments, braces, includes and namespace lines are ignored."""
import os, re, sys, glob
REPO = '/repo'
files = {}
for root in ('src', 'include', 'schemas'):
    for d, _, fs in os.walk(os.path.join(REPO, root)):
        for f in fs:
            if f.endswith(('.cpp', '.h', '.fbs')): files.setdefault(f, []).append(os.path.join(d, f))
cited = {p: set() for ps in files.values() for p in ps}
CITE = re.compile(r'((?:[\w]+/)*\w+\.(?:cpp|h|fbs)):(\d+(?:-\d+)?(?:,\s*(?:and\s+)?\d+(?:-\d+)?)*)')
for m in glob.glob('/verif/lean/Verif/Model/*.lean'):
    t = re.sub(r'\s*\n\s*', ' ', open(m).read())
    for c in CITE.finditer(t):
        name = c.group(1); base = os.path.basename(name)
        cands = [p for p in files.get(base, []) if p.endswith('/' + name)]
        if not cands: print('unknown file', name, os.path.basename(m)); continue
        if len(cands) > 1:
            cands = [p for p in cands if ('service' in p) == (os.path.basename(m) == 'Service.lean')] or cands
        for r in re.findall(r'(\d+)(?:-(\d+))?', c.group(2)):
            a = int(r[0]); b = int(r[1] or a)
            for p in cands:
                if b > len(open(p).read().split('\n')): print('beyond the end', c.group(0), os.path.basename(m))
                cited[p].update(range(a, b + 1))
skip = re.compile(r'^\s*($|//|/\*|\*|[{}\[\]();]+$|#|namespace|using |public:|private:|protected:|class \w+;)')
tot = miss = 0
for p in sorted(cited):
    ls = open(p).read().split('\n'); out = []
    for i, l in enumerate(ls, 1):
        if skip.match(l): continue
        tot += 1
        if i not in cited[p]: out.append(i); miss += 1
    if out:
        rs = []
        for i in out:
            if rs and i - rs[-1][1] <= 2: rs[-1][1] = i
            else: rs.append([i, i])
        print(p[len(REPO) + 1:], ' '.join('%d-%d' % tuple(r) if r[0] != r[1] else str(r[0]) for r in rs))
print('%d of %d lines not cited' % (miss, tot))
