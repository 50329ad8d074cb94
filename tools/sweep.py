"""Automatic mutation sweep over the model.

usage: sweep.py BASE WORK OUT SEED PER_DEF [FILE ...]

BASE is a built copy of /verif/lean outside the repository.  For every definition in Verif/Model (or the given files)
up to PER_DEF random single-token edits are tried; the library is rebuilt until the first proof fails.  One JSON line
per attempt goes to OUT: killed (with the first failing file and line), survived, or invalid (does not compile).
"""
import json, os, random, re, signal, subprocess, sys, time

base, work, out, seed, per = sys.argv[1:6]
files = sys.argv[6:] or sorted(f for f in os.listdir(f'{base}/Verif/Model') if f.endswith('.lean'))
rnd = random.Random(int(seed))
per = int(per)
DEF = re.compile(r'^(?:@\[[^\]]*\]\s*)?(?:private |protected |noncomputable )*(def|inductive)\b\s*([^\s:({\[]*)')
TOP = re.compile(r'^(/--|/-!|end |namespace |section|open |variable|@\[|attribute|local |theorem|lemma|def|example|instance|structure|'
                 r'inductive|abbrev|private|protected|noncomputable)')
OPS = [(r' \+ ', ' - '), (r' - ', ' + '), (r' < ', ' ≤ '), (r' ≤ ', ' < '), (r' > ', ' ≥ '), (r' ≥ ', ' > '), (r' ∧ ', ' ∨ '), (r' ∨ ', ' ∧ '),
       (r' && ', ' || '), (r' \|\| ', ' && '), (r' == ', ' != '), (r' = ', ' ≠ '), (r' ≠ ', ' = '), (r'\bmax\b', 'min'), (r'\bmin\b', 'max'),
       (r'\btrue\b', 'false'), (r'\bfalse\b', 'true'), (r' \* ', ' + '), (r' / ', ' * '), (r' % ', ' / '), (r'(?<![\w.])¬', ''),
       (r'(?<![\w.^])(\d+)(?![\w.])', lambda m: str(int(m.group(1)) + 1)), (r'(?<=[\w)])\.1\b', '.2'), (r'(?<=[\w)])\.2\b', '.1'),
       (r'⌊', '⌈'), (r'\bInt\.floor\b', 'Int.ceil'), (r'(?<= )!(?=\w)', ''), (r' \^\^ ', ' || ')]


def sites(s):
    """(definition, start, end, replacement) of all edits in the text."""
    mask = list(s)
    for m in re.finditer(r'/-.*?-/|--[^\n]*|"[^"\n]*"', s, re.S):
        for i in range(*m.span()):
            if mask[i] != '\n':
                mask[i] = '\x00'
    t = ''.join(mask)
    pos = 0
    name = None
    start = None
    spans = []
    for line in t.split('\n'):
        d = DEF.match(line)
        if d or TOP.match(line):
            if name is not None:
                spans.append((name, start, pos))
            name = d.group(2) if d else None
            start = pos
        pos += len(line) + 1
    if name is not None:
        spans.append((name, start, pos))
    res = {}
    for name, a, b in spans:
        body = t.find(':=', a, b)
        alt = t.find('\n  | ', a, b)
        c = min(x for x in (body, alt, b) if x >= 0)
        l = []
        for pat, rep in OPS:
            for m in re.finditer(pat, t[c:b]):
                new = rep(m) if callable(rep) else rep
                if pat.startswith('⌊'):
                    continue
                l.append((c + m.start(), c + m.end(), new))
        res.setdefault((name, a), []).extend(l)
    return res


def build():
    p = subprocess.Popen(['nice', 'lake', 'build', 'Verif'], cwd=work, stdout=subprocess.PIPE, stderr=subprocess.STDOUT, text=True,
                         start_new_session=True)
    for line in p.stdout:
        m = re.match(r'error: (Verif\S*?\.lean):(\d+):\d+: (.*)', line)
        if m:
            os.killpg(p.pid, signal.SIGKILL)
            p.wait()
            return m.group(1), int(m.group(2)), m.group(3)
    return ('other', 0, '') if p.wait() else None


done = set()
if os.path.exists(out):
    for l in open(out):
        r = json.loads(l)
        done.add((r['file'], r['definition']))
todo = []
for f in files:
    for k, v in sites(open(f'{base}/Verif/Model/{f}').read()).items():
        if (f, k[0]) not in done and v:
            todo.append((f, k, v))
rnd.shuffle(todo)
for f, (name, a), v in todo:
    s = open(f'{base}/Verif/Model/{f}').read()
    rnd.shuffle(v)
    n = 0
    for x, y, new in v[:3 * per]:
        if n == per:
            break
        subprocess.run(['rm', '-rf', work], check=True)
        subprocess.run(['cp', '-a', base, work], check=True)
        open(f'{work}/Verif/Model/{f}', 'w').write(s[:x] + new + s[y:])
        t0 = time.time()
        e = build()
        ls, le = s.rfind('\n', 0, x) + 1, s.find('\n', y)
        rec = {'file': f, 'definition': name, 'line': s.count('\n', 0, x) + 1, 'old': s[ls:le], 'new': s[ls:x] + new + s[y:le]}
        if e is None:
            rec['result'] = 'survived'
        elif e[0] == f'Verif/Model/{f}':
            rec['result'] = 'invalid'
        else:
            rec['result'] = 'killed'
            rec['by'] = f'{e[0]}:{e[1]}'
        rec['s'] = round(time.time() - t0)
        if rec['result'] != 'invalid':
            n += 1
        open(out, 'a').write(json.dumps(rec, ensure_ascii=False) + '\n')
