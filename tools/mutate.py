#!/usr/bin/env python3
"""Mutation testing of the model.

Reads a JSON list of {"file","old","new","definition","edit","breaks"} (file
relative to lean/Verif), applies each edit to a scratch copy of the Lake
project, rebuilds, and appends one line per attempt to seeded/LOG.jsonl.
`theorems_failed` are the declarations in which Lean reported errors,
`blocked` the claim theorems of modules that could not be built because a
module they import failed.
"""
import json, os, re, shutil, subprocess, sys, datetime

ROOT = '/verif'
SCRATCH = os.environ.get('MUT', '/tmp/mut') + '/lean'

def decl_at(path, line):
    name = None
    for i, l in enumerate(open(path), 1):
        m = re.match(r'\s*(?:@\[[^\]]*\]\s*)?(?:private |protected |noncomputable )*(theorem|lemma|def|instance|example|abbrev)\s*([^\s:({\[]*)', l)
        if m and i <= line:
            name = m.group(2) or ('example@%d' % i)
    return name or '?'

def claims(path):
    return re.findall(r'^theorem (C\d\d+_\w+)', open(path).read(), re.M)

def imports(path):
    return re.findall(r'^import Verif\.(\S+)', open(path).read(), re.M)

def modules(root):
    out = {}
    for d, _, fs in os.walk(root + '/Verif'):
        for f in fs:
            if f.endswith('.lean'):
                p = os.path.join(d, f)
                out[os.path.relpath(p, root + '/Verif')[:-5].replace('/', '.')] = p
    return out

def main():
    muts = json.load(open(sys.argv[1]))
    log = ROOT + '/seeded/LOG.jsonl'
    os.makedirs(os.path.dirname(SCRATCH), exist_ok=True)
    subprocess.run(['rsync', '-a', '--delete', ROOT + '/lean/', SCRATCH + '/'], check=True) if shutil.which('rsync') else (
        shutil.rmtree(SCRATCH, ignore_errors=True), subprocess.run(['cp', '-a', ROOT + '/lean', SCRATCH], check=True))
    for m in muts:
        p = SCRATCH + '/Verif/' + m['file']
        src = open(p).read()
        if src.count(m['old']) != m.get('count', 1):
            print('SKIP (pattern found %d times): %s' % (src.count(m['old']), m['edit'])); continue
        open(p, 'w').write(src.replace(m['old'], m['new']))
        # build everything that transitively imports the edited module
        mods = modules(SCRATCH)
        me = m['file'][:-5].replace('/', '.')
        imps = {k: imports(v) for k, v in mods.items()}
        dep = {me}
        while True:
            n = {k for k in mods if k not in dep and any(i in dep for i in imps[k])}
            if not n: break
            dep |= n
        try:
            r = subprocess.run(['lake', 'build'] + ['Verif.' + k for k in sorted(dep)], cwd=SCRATCH, capture_output=True, text=True, timeout=1500)
            out = r.stdout + r.stderr
        except subprocess.TimeoutExpired as e:
            out = (e.stdout or b'').decode() + 'error: timeout'
        failed, bad = [], set()
        for f, ln in re.findall(r'error: (Verif/[^:]+\.lean):(\d+):', out):
            d = decl_at(SCRATCH + '/' + f, int(ln))
            k = f[len('Verif/'):-5].replace('/', '.')
            bad.add(k)
            q = k + ':' + d
            if q not in failed: failed.append(q)
        blocked = set(bad)
        while True:
            n = {k for k in dep if k not in blocked and any(i in blocked for i in imps[k])}
            if not n: break
            blocked |= n
        bl = sorted(c for k in blocked - bad for c in claims(mods[k]))
        rec = {'date': datetime.datetime.now().strftime('%Y-%m-%dT%H:%M'), 'definition': m['definition'], 'file': m['file'],
               'edit': m['edit'], 'breaks': m['breaks'], 'theorems_failed': failed, 'blocked': bl,
               'caught': bool(failed), 'tightened': []}
        print(('CAUGHT ' if failed else 'SURVIVED ') + m['edit'] + ' -> ' + ', '.join(failed[:8]))
        open(log, 'a').write(json.dumps(rec) + '\n')
        open(p, 'w').write(src)

main()
