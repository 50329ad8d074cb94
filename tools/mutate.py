"""Mutation testing of the model.

usage: mutate.py BASE WORK MUTANTS LOG [first [last]]

BASE is a built copy of /verif/lean outside the repository, with MANIFEST.json in it, WORK a scratch directory, MUTANTS a JSON list of
{file, old, new, nth?, definition, edit, breaks, expect}.  Each mutant is applied to a fresh copy and the library is
rebuilt.  In the scratch copy (only), proofs that no longer check are cut out with a placeholder so that the files
that import them can be checked as well; a theorem counts as failed when its own proof breaks or when it depends on
a placeholder (`#print axioms`).
"""
import json, os, re, subprocess, sys, time

base, work, mutants, log = sys.argv[1:5]
muts = json.load(open(mutants))
first = int(sys.argv[5]) if len(sys.argv) > 5 else 0
last = int(sys.argv[6]) if len(sys.argv) > 6 else len(muts)
DECL = re.compile(r'^(?:@\[[^\]]*\]\s*)?((?:private |protected |noncomputable )*)'
                  r'(theorem|lemma|def|example|instance|structure|inductive|abbrev)\b\s*([^\s:({\[]*)')
BLOCK = re.compile(r'^(/--|/-!|end\b|namespace |section|open |variable|@\[|attribute|local )')
HOLE = 'so' + 'rry'
TMP = os.path.dirname(os.path.abspath(work))


def decls(lines):
    """(first line, end line exclusive, kind, name), 0-based."""
    out = []
    for i, l in enumerate(lines):
        m = DECL.match(l)
        if m:
            j = i + 1
            while j < len(lines) and not DECL.match(lines[j]) and not BLOCK.match(lines[j]):
                j += 1
            out.append((i, j, m.group(2), m.group(3)))
    return out


def cut(text):
    """Replace the body of a declaration by a placeholder; None if no body is found."""
    depth = 0
    i = 0
    while i < len(text):
        c = text[i]
        if c in '([{⟨':
            depth += 1
        elif c in ')]}⟩':
            depth -= 1
        elif depth == 0 and text.startswith(':=', i):
            return text[:i] + ':= ' + HOLE + '\n'
        elif depth == 0 and text.startswith('\n  | ', i):
            return text[:i] + ' := ' + HOLE + '\n'
        i += 1
    return None


def build():
    r = subprocess.run(['nice', 'lake', 'build', 'Verif'], cwd=work, capture_output=True, text=True)
    out = r.stdout + r.stderr
    errs = {}
    for f, ln in re.findall(r'error: (Verif/\S+?\.lean):(\d+):\d+', out):
        errs.setdefault(f, set()).add(int(ln) - 1)
    return out, errs


def run(k, m):
    subprocess.run(['rm', '-rf', work], check=True)
    subprocess.run(['cp', '-a', base, work], check=True)
    p = os.path.join(work, 'Verif', m['file'])
    s = open(p).read()
    n = s.count(m['old'])
    if n == 0 or (n > 1 and 'nth' not in m):
        return f'BAD PATTERN {n}', None
    pos = -1
    for _ in range(m.get('nth', 0) + 1):
        pos = s.index(m['old'], pos + 1)
    s = s[:pos] + m['new'] + s[pos + len(m['old']):]
    open(p, 'w').write(s)
    direct, examples, cutonce = set(), 0, set()
    for it in range(14):
        out, errs = build()
        open(f'{TMP}/out_{k}_{it}.txt', 'w').write(out)
        if not errs:
            break
        for f in errs:
            path = os.path.join(work, f)
            lines = open(path).read().split('\n')
            ds = decls(lines)
            hit = {}
            for ln in errs[f]:
                inside = [d for d in ds if d[0] <= ln < d[1]]
                # a timeout is reported at the doc comment: take the declaration below it
                for d in inside or [d for d in ds if d[0] > ln][:1]:
                    hit[d[0]] = d
            if (f.startswith('Verif/Model') or f == 'Verif/Basic.lean') and any(d[2] == 'def' for d in hit.values()):
                return f'MODEL DOES NOT COMPILE {f} {sorted(errs[f])}', None
            if not hit:
                return f'CANNOT ATTRIBUTE {f} {sorted(errs[f])}', None
            for d in sorted(hit.values(), reverse=True):
                text = '\n'.join(lines[d[0]:d[1]])
                if d[2] == 'example':
                    examples += 1
                    new = None
                else:
                    direct.add(d[3])
                    new = None if (f, d[3]) in cutonce else cut(text)
                    cutonce.add((f, d[3]))
                if new is None:
                    a = d[0]
                    # a doc comment before a removed declaration goes with it
                    if a > 0 and lines[a - 1].rstrip().endswith('-/'):
                        while not lines[a - 1].startswith('/-'):
                            a -= 1
                        a -= 1
                    lines[a:d[1]] = ['']
                else:
                    lines[d[0]:d[1]] = new.split('\n')
            open(path, 'w').write('\n'.join(lines))
    else:
        return 'NO FIXPOINT', None
    names = []
    for c in json.load(open(os.path.join(base, 'MANIFEST.json')))['claims']:
        names += c['theorems']
    q = 'import Verif\n' + '\n'.join(f'#print axioms {x}' for x in names)
    open(f'{TMP}/ax.lean', 'w').write(q)
    r = subprocess.run(['nice', 'lake', 'env', 'lean', f'{TMP}/ax.lean'], cwd=work, capture_output=True, text=True)
    o = r.stdout + r.stderr
    ok = set()
    for name, ax in re.findall(r"'([^ ]*)' depends on axioms: \[([^\]]*)\]", o):
        if 'sorryAx' not in ax:
            ok.add(name)
    for name in re.findall(r"'([^ ]*)' does not depend on any axioms", o):
        ok.add(name)
    bad = sorted(x.split('.')[-1] for x in names if x not in ok)
    rec = {'definition': f"{m['definition']} (lean/Verif/{m['file']})", 'edit': m['edit'], 'breaks': m['breaks'],
           'failed_theorems': bad, 'proof_breaks_in': sorted(direct), 'examples_broken': examples,
           'expected': m['expect'], 'tightened': []}
    miss = [e for e in m['expect'] if not any(c == e or c.startswith(e + '_') for c in bad)]
    flag = 'SURVIVED' if not bad else ('ok' if not miss else 'EXPECTED-MISSING ' + str(miss))
    return flag, rec


for k in range(first, last):
    m = muts[k]
    t0 = time.time()
    flag, rec = run(k, m)
    if rec:
        open(log, 'a').write(json.dumps(rec) + '\n')
    print(k, flag, f'{time.time()-t0:.0f}s', m['definition'], '|', m['edit'], '|',
          (rec or {}).get('failed_theorems'), '| direct', (rec or {}).get('proof_breaks_in'), flush=True)
