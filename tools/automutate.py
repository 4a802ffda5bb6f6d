#!/usr/bin/env python3
"""Automatic mutation testing of the model.

For every definition whose comment cites /repo (in the files whose path matches the argument), makes small edits of the
body (constants, comparisons, connectives, signs, negated conditions) in a scratch copy, and builds the modules that
depend on it until a theorem fails.  Edits that Lean rejects in a definition do not count.  One line per attempt goes
to seeded/LOG.jsonl.

usage: MUT=/tmp/mut3 automutate.py REGEX [edits per definition] [seed] [file with lines "path name": only these]
       MUT=/tmp/mut3 automutate.py EDITS.json   (the format of mutate.py; stops at the first module that fails)
PRIST is a built copy of the Lake project from which the scratch copy is made and restored.
"""
import json, os, re, random, shutil, signal, subprocess, sys, datetime, time

ROOT = '/verif'
SCRATCH = os.environ.get('MUT', '/tmp/mut3') + '/lean'
BUILD = '.lake/build/lib/lean/Verif/'
DECL = re.compile(r'(?:@\[[^\]]*\]\s*)?(?:private |protected |noncomputable )*(theorem|lemma|def|instance|example|abbrev|structure|inductive)\s*([^\s:({\[]*)')

def decl_at(path, line):
    r = ('?', '?')
    for i, l in enumerate(open(path), 1):
        m = DECL.match(l)
        if m and i <= line:
            r = (m.group(1), m.group(2) or 'example@%d' % i)
    return r

def modules(root):
    out = {}
    for d, _, fs in os.walk(root + '/Verif'):
        for f in fs:
            if f.endswith('.lean'):
                p = os.path.join(d, f)
                out[os.path.relpath(p, root + '/Verif')[:-5].replace('/', '.')] = p
    return out

def imports(path):
    return re.findall(r'^import Verif\.(\S+)', open(path).read(), re.M)

def claims(path):
    return re.findall(r'^theorem (C\d\d+_\w+)', open(path).read(), re.M)

SWAPS = [('<', '≤'), ('≤', '<'), ('>', '≥'), ('≥', '>'), ('&&', '||'), ('||', '&&'), ('∧', '∨'), ('∨', '∧'), ('+', '-'), ('-', '+'),
         ('<<<', '>>>'), ('>>>', '<<<'), ('/', '%'), ('%', '/'), ('&&&', '|||'), ('|||', '&&&'), ('==', '!='), ('!=', '==')]
WORDS = [('true', 'false'), ('false', 'true'), ('min', 'max'), ('max', 'min')]
DOTS = [('.take', '.drop'), ('.drop', '.take'), ('.isSome', '.isNone'), ('.isNone', '.isSome'), ('.any', '.all'), ('.all', '.any'),
        ('.reverse', ''), ('.foldl', '.foldr'), ('.tail', ''), ('.head?', '.getLast?')]

def sites(body):
    """(position, old, new, kind)"""
    code = re.sub(r'--.*', lambda m: '\x00' * len(m.group(0)), body)
    code = re.sub(r'(?m)^  +\|(?!\|).*?=>', lambda m: '\x00' * len(m.group(0)), code)
    code = re.sub(r'(?s)\n(termination_by|decreasing_by).*', lambda m: '\x00' * len(m.group(0)), code)
    code = re.sub(r'"[^"\n]*"', lambda m: '\x00' * len(m.group(0)), code)
    out = []
    for a, b in SWAPS:
        for m in re.finditer(r'(?<= )' + re.escape(a) + r'(?= )', code):
            out.append((m.start(), a, b, a))
    for a, b in WORDS:
        for m in re.finditer(r"(?<![\w.'])" + a + r"(?![\w'])", code):
            out.append((m.start(), a, b, a))
    for a, b in DOTS:
        for m in re.finditer(re.escape(a) + r"(?![\w'?])", code):
            out.append((m.start(), a, b, a))
    for m in re.finditer(r"(?<![\w.'^?!\])}₀-₉])(\d+)(?![\w.'])", code):
        n = m.group(1)
        out.append((m.start(), n, str(int(n) + 1), 'number'))
        if int(n) > 1: out.append((m.start(), n, str(int(n) - 1), 'number'))
    for m in re.finditer(r'\bif ((?:(?!\b(?:then|if|let|match|fun)\b|:|\x00|\n).)+) then\b', code):
        c = m.group(1)
        out.append((m.start(1), c, '¬ (' + c + ')', 'condition'))
        out.append((m.start(1), c, '(' + c + ') ∧ False', 'condition never'))
    for m in re.finditer(r'!(?=[\w(])', code):
        out.append((m.start(), '!', '', '!'))
    return out

def defs(src):
    for m in re.finditer(r'^(?:@\[[^\]]*\] )?(?:private |protected |noncomputable )*(?:def|abbrev) ([^\s:({\[]+)', src, re.M):
        pre = src[:m.start()]
        if not pre.rstrip().endswith('-/'): continue
        doc = pre[pre.rfind('/--'):]
        if '/repo' not in doc and '.go:' not in doc: continue
        e = re.compile(r'\n\n(?=\S)|\nend |\n/--').search(src, m.end())
        end = e.start() if e else len(src)
        s = re.compile(r':=|\n  \|').search(src, m.end(), end)
        if not s: continue
        yield m.group(1), s.start(), end

def too_big(pgid):
    """whether the compilers of this group need more than 6 GB"""
    tot = 0
    for d in os.listdir('/proc'):
        if d.isdigit():
            try:
                st = open('/proc/%s/stat' % d).read().rsplit(')', 1)[1].split()
                if int(st[2]) != pgid: continue
                for l in open('/proc/%s/status' % d):
                    if l.startswith('RssAnon'): tot += int(l.split()[1])
            except (OSError, IndexError): pass
    return tot > int(os.environ.get('CAP', '6000000'))

def run(dep, me, name, imps):
    p = subprocess.Popen(['nice', 'lake', 'build'] + ['Verif.' + k for k in sorted(dep)], cwd=SCRATCH, stdout=subprocess.PIPE,
                         stderr=subprocess.STDOUT, text=True, start_new_session=True)
    t0 = time.time()
    errs, stop, kill_at = [], False, None
    import select
    os.set_blocking(p.stdout.fileno(), False)
    buf = ''
    timed = False
    while True:
        select.select([p.stdout], [], [], 1)
        try: c = os.read(p.stdout.fileno(), 1 << 16).decode('utf8', 'replace')
        except BlockingIOError: c = None
        if c: buf += c
        while '\n' in buf:
            l, buf = buf.split('\n', 1)
            x = re.match(r'error: (Verif/[^:]+\.lean):(\d+):', l)
            if x:
                errs.append((x.group(1), int(x.group(2))))
                if kill_at is None: kill_at = time.time() + 2
        if too_big(p.pid): kill_at = 1
        done = p.poll() is not None and c == ''
        if (kill_at and time.time() > kill_at) or time.time() - t0 > 1800:
            timed = not errs
            try: os.killpg(p.pid, signal.SIGKILL)
            except ProcessLookupError: pass
            p.wait(); break
        if done: break
    r = []
    for f, ln in errs:
        kind, d = decl_at(SCRATCH + '/' + f, ln)
        q = (kind, f[len('Verif/'):-5].replace('/', '.'), d)
        if q not in r: r.append(q)
    return r, timed

def restore(dep, t0):
    for k in dep:
        rel = BUILD + k.replace('.', '/')
        d = os.path.dirname(SCRATCH + '/' + rel); b = os.path.basename(rel)
        for f in os.listdir(d):
            if f.split('.')[0] == b:
                s, g = os.path.join(PRIST, os.path.dirname(rel), f), os.path.join(d, f)
                if not os.path.exists(s): os.remove(g)
                elif os.path.getmtime(g) != os.path.getmtime(s): shutil.copy2(s, g)
        pd = os.path.join(PRIST, os.path.dirname(rel))
        for f in os.listdir(pd):
            if f.split('.')[0] == b and not os.path.exists(os.path.join(d, f)): shutil.copy2(os.path.join(pd, f), os.path.join(d, f))

PRIST = os.environ.get('PRIST', '/tmp/prist')

def dependents(me, mods, imps):
    dep = {me}
    while True:
        n = {k for k in mods if k not in dep and any(i in dep for i in imps[k])}
        if not n: return dep
        dep |= n

def attempt(me, rel, name, src, new, edit, breaks, auto, mods, imps):
    """False if Lean rejects the definition"""
    p, t0 = mods[me], time.time()
    dep = dependents(me, mods, imps)
    open(p, 'w').write(new)
    try: errs, timed = run(dep, me, name, imps)
    finally:
        open(p, 'w').write(src); restore(dep, t0)
    if timed: print('TIMEOUT', rel, name, edit, flush=True); return True
    if errs and all(k not in ('theorem', 'lemma', 'example') for k, _, _ in errs):
        print('INVALID', rel, name, edit, flush=True); return False
    thms = ['%s:%s' % (m, d) for k, m, d in errs if k in ('theorem', 'lemma', 'example')]
    bad = {m for _, m, _ in errs}
    blocked = set(bad)
    for k in bad: blocked |= dependents(k, mods, imps)
    bl = sorted(c for k in blocked - bad for c in claims(mods[k]))
    exonly = bool(thms) and all(k == 'example' for k, _, _ in errs)
    cl = sorted({c.split('_')[0] for c in bl} | {x.split(':')[1].split('_')[0] for x in thms if re.match(r'C\d', x.split(':')[1])})
    rec = {'date': datetime.datetime.now().strftime('%Y-%m-%dT%H:%M'), 'definition': name, 'file': rel, 'edit': edit,
           'breaks': breaks or 'claims over ' + name + (': ' + ', '.join(cl[:12]) if cl else ''), 'theorems_failed': thms,
           'blocked': bl[:40], 'caught': bool(thms), 'tightened': [], 'automatic': auto}
    print(('EXAMPLE ' if exonly else 'CAUGHT ' if thms else 'SURVIVED '), rel, name, '|', edit, '->', ', '.join(thms[:4]), '%ds' % (time.time() - t0), flush=True)
    open(ROOT + '/seeded/LOG.jsonl', 'a').write(json.dumps(rec, ensure_ascii=False) + '\n')
    return True

def given(path):
    mods = modules(SCRATCH)
    imps = {k: imports(v) for k, v in mods.items()}
    for m in json.load(open(path)):
        me = m['file'][:-5].replace('/', '.')
        src = open(mods[me]).read()
        if src.count(m['old']) != m.get('count', 1):
            print('SKIP (pattern found %d times): %s' % (src.count(m['old']), m['edit']), flush=True); continue
        attempt(me, m['file'], m['definition'], src, src.replace(m['old'], m['new']), m['edit'], m['breaks'], False, mods, imps)

def main():
    shutil.rmtree(SCRATCH, ignore_errors=True); os.makedirs(os.path.dirname(SCRATCH), exist_ok=True)
    subprocess.run(['cp', '-a', PRIST, SCRATCH], check=True)
    if sys.argv[1].endswith('.json'): return given(sys.argv[1])
    rx = re.compile(sys.argv[1]); per = int(sys.argv[2]) if len(sys.argv) > 2 else 1
    seed = int(sys.argv[3]) if len(sys.argv) > 3 else 1
    only = set(open(sys.argv[4]).read().split('\n')) if len(sys.argv) > 4 else None
    rnd = random.Random(seed)
    mods = modules(SCRATCH)
    imps = {k: imports(v) for k, v in mods.items()}
    jobs = []
    for me in sorted(mods):
        rel = me.replace('.', '/') + '.lean'
        if not rx.search(rel): continue
        src = open(mods[me]).read()
        for name, a, b in defs(src):
            if only is not None and rel + ' ' + name not in only: continue
            jobs.append((me, rel, name, a, b))
    rnd.shuffle(jobs)
    seen = {(e.get('file'), e['definition']) for e in map(json.loads, open(ROOT + '/seeded/LOG.jsonl')) if e.get('automatic')} if seed == 1 else set()
    jobs = [j for j in jobs if (j[1], j[2]) not in seen]
    print(len(jobs), 'definitions', flush=True)
    for me, rel, name, a, b in jobs:
        p = mods[me]
        src = open(p).read()
        ss = sites(src[a:b]); rnd.shuffle(ss)
        got, used = 0, set()
        for pos, old, new, kind in ss[:12]:
            if got >= per: break
            if (pos, kind) in used: continue
            used.add((pos, kind))
            at = a + pos
            assert src[at:at + len(old)] == old
            lo = src.rfind('\n', 0, at) + 1; hi = src.find('\n', at)
            l0 = src[lo:hi]; l1 = l0[:at - lo] + new + l0[at - lo + len(old):]
            edit = '%s  ⟶  %s' % (l0.strip(), l1.strip())
            if attempt(me, rel, name, src, src[:at] + new + src[at + len(old):], edit, None, True, mods, imps): got += 1

main()
