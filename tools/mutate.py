#!/usr/bin/env python3
"""Mutation testing. Usage: mutate.py MUTATIONS.json [first [last]]

Works on a scratch copy (default /tmp/mut, beside a pristine one /tmp/mutsrc; both made with `cp -a /verif/lean`). Each mutation is
{"file", "def", "old", "new", "breaks": [claims], "what"}. The edit is applied to the model, then everything is built.
A theorem whose proof no longer goes through is replaced by `sorry` and the build repeated, so that the theorems that
rest on it are still checked; at the end `#print axioms` tells which property theorems have lost their proof. Examples
that fail are removed. The result is appended to OUT (default /tmp/mut.jsonl).
"""
import json, os, re, subprocess, sys, shutil, time
SRC = os.environ.get('MUTSRC', '/tmp/mutsrc')  # pristine copy, so that /verif can change meanwhile
DST = os.environ.get('MUT', '/tmp/mut')
OUT = os.environ.get('OUT', '/tmp/mut.jsonl')
DECL = re.compile(r'^(?:@\[[^\]]*\]\s*)?(?:private |protected |noncomputable |local )*(theorem|lemma|example|def|instance|structure|inductive|abbrev|namespace|end|section|open|mutual|variable|set_option|/--|/-!|deriving|macro|syntax|scoped|attribute|import)\b|^(/--|/-!)')

def decl_span(lines, n):
    """Lines [a, b) of the declaration containing line n (0-based)."""
    a = n
    while a > 0 and not DECL.match(lines[a]): a -= 1
    if lines[a].startswith('/--'):  # an error at the comment belongs to the declaration behind it
        while a + 1 < len(lines) and '-/' not in lines[a]: a += 1
        a += 1
    b = a + 1
    while b < len(lines) and not DECL.match(lines[b]): b += 1
    return a, b

def sorry_out(text):
    """Replace the proof in a theorem's text."""
    depth = 0; i = 0
    while i < len(text):
        c = text[i]
        if c in '([{⟨': depth += 1
        elif c in ')]}⟩': depth -= 1
        elif depth == 0 and text.startswith(':=', i) and not re.match(r'\s*let ', text[text.rfind('\n', 0, i) + 1:i]):
            return text[:i] + ':= by sorry\n\n'
        elif depth == 0 and text.startswith('\n  | ', i) :
            return text[:i] + ' := by sorry\n\n'
        i += 1
    return None

def build():
    p = subprocess.run(['lake', 'build'], cwd=DST, capture_output=True, text=True, timeout=3600)
    out = p.stdout + p.stderr
    errs = {}
    for m in re.finditer(r'^error: (Verif/\S+?\.lean):(\d+):(\d+): (.*)', out, re.M):
        errs.setdefault(m.group(1), []).append((int(m.group(2)) - 1, m.group(4)))
    return p.returncode, errs, out

def run(mu):
    t0 = time.time()
    touched = set()
    f = os.path.join(DST, mu['file'])
    s = open(f).read()
    if s.count(mu['old']) != 1:
        return {'error': 'pattern occurs %d times' % s.count(mu['old'])}
    open(f, 'w').write(s.replace(mu['old'], mu['new'])); touched.add(mu['file'])
    failed, examples, note, killed = [], [], '', {}
    try:
        for rnd in range(40):
            rc, errs, out = build()
            if rc == 0: break
            if not errs:
                # a prover process was killed (out of memory, time): drop the examples of the module, then its proofs
                mods = [m.replace('.', '/') + '.lean' for m in re.findall(r'^- (Verif\S*)', out, re.M)]
                mods = [m for m in mods if killed.get(m, 0) < 2]
                if not mods:
                    note = 'no error located: ' + out[-600:]; break
                for fn in mods:
                    killed[fn] = killed.get(fn, 0) + 1
                    p = os.path.join(DST, fn)
                    lines = open(p).read().split('\n')
                    n = len(lines) - 1
                    while n >= 0:
                        a, b = decl_span(lines, n)
                        kw = DECL.match(lines[a]); kw = kw.group(1) if kw else None
                        txt = '\n'.join(lines[a:b])
                        if kw == 'example' and killed[fn] == 1:
                            lines[a:b] = ['example : True := trivial', '']; examples.append(os.path.basename(fn)[:-5])
                        elif kw in ('theorem', 'lemma') and killed[fn] == 2 and 'by sorry' not in txt:
                            new = sorry_out(txt)
                            if new:
                                lines[a:b] = new.split('\n')[:-1]
                                failed.append(re.search(r'(?:theorem|lemma)\s+(\S+)', txt).group(1) + ' (killed)')
                        n = a - 1
                    open(p, 'w').write('\n'.join(lines)); touched.add(fn)
                continue
            bad = False
            for fn, es in errs.items():
                p = os.path.join(DST, fn)
                lines = open(p).read().split('\n')
                spans = {}
                for n, msg in es:
                    spans.setdefault(decl_span(lines, n), msg)
                for (a, b), msg in sorted(spans.items(), reverse=True):
                    kind = DECL.match(lines[a])
                    kw = kind.group(1) if kind else None
                    txt = '\n'.join(lines[a:b])
                    if kw in ('theorem', 'lemma'):
                        name = re.search(r'(?:theorem|lemma)\s+(\S+)', txt).group(1)
                        new = sorry_out(txt)
                        if new is None or 'by sorry' in txt:
                            note = 'cannot repair %s in %s: %s' % (name, fn, msg); bad = True; continue
                        # a preceding termination hint inside the span is dropped with the proof
                        lines[a:b] = new.split('\n')[:-1]
                        failed.append(name)
                    elif kw == 'example':
                        lines[a:b] = ['example : True := trivial', '']
                        examples.append(os.path.basename(fn)[:-5])
                    else:
                        note = 'error in %s %s:%d %s' % (kw, fn, a + 1, msg); bad = True
                open(p, 'w').write('\n'.join(lines)); touched.add(fn)
            if bad: break
        lost = None
        if rc == 0:
            ths = [t for c in json.load(open('/verif/MANIFEST.json'))['claims'] for t in c['theorems']]
            q = 'import Verif\n' + ''.join('#print axioms %s\n' % t for t in ths)
            open(os.path.join(DST, 'q.lean'), 'w').write(q)
            r = subprocess.run(['lake', 'env', 'lean', 'q.lean'], cwd=DST, capture_output=True, text=True)
            lost = []
            for m in re.finditer(r"'([^']+)' depends on axioms: \[([^\]]*)\]", r.stdout):
                if 'sorryAx' in m.group(2): lost.append(m.group(1))
    finally:
        for fn in touched: shutil.copy2(os.path.join(SRC, fn), os.path.join(DST, fn))
    return {'failed': failed, 'examples': examples, 'lost': lost, 'note': note, 'rounds': rnd + 1, 'secs': round(time.time() - t0)}

if __name__ == '__main__':
    mus = json.load(open(sys.argv[1]))
    a = int(sys.argv[2]) if len(sys.argv) > 2 else 0
    b = int(sys.argv[3]) if len(sys.argv) > 3 else len(mus)
    for i in range(a, b):
        mu = mus[i]
        r = run(mu)
        claims = sorted({t.split('.')[-1].split('_')[0] for t in (r.get('lost') or [])})
        missing = [c for c in mu['breaks'] if c not in claims]
        r['survives'] = missing
        open(OUT, 'a').write(json.dumps({**mu, **r}, ensure_ascii=False) + '\n')
        print(i, mu['what'], '| lost', claims, '| SURVIVES', missing, '| ex', r.get('examples'), '|', r.get('note', '') or r.get('error', ''), r.get('secs'), flush=True)
