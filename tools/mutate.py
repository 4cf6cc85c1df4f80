#!/usr/bin/env python3
"""Apply seeded bugs to a scratch copy of the Lean project and record which theorems stop proving.

usage: mutate.py mutations.json   (list of {file, old, new, definition, edit, claim})
"""
import json, os, re, signal, subprocess, sys, time
SRC = '/verif/lean'
DST = '/tmp/scratch/lean'
LOG = '/verif/seeded/LOG.jsonl'


KEEP = '/tmp/scratch/keep'


def sync():
    """Keep a copy of the project with its build, so that work on the project does not disturb the run."""
    subprocess.run(f'rm -rf {KEEP} && mkdir -p {KEEP} && cp -a {SRC}/. {KEEP}', shell=True, check=True)


def restore():
    subprocess.run(f'rm -rf {DST} && cp -a {KEEP} {DST}', shell=True, check=True)


def imports():
    res = {}
    for d, _, fs in os.walk(DST + '/Verif'):
        for f in fs:
            if f.endswith('.lean'):
                p = os.path.join(d, f)
                m = os.path.relpath(p, DST)[:-5].replace('/', '.')
                res[m] = [l.split()[1] for l in open(p) if l.startswith('import Verif')]
    return res


def enclosing(path, line):
    lines = open(path).read().split('\n')[:line]
    for l in reversed(lines):
        m = re.match(r'(?:private |protected |noncomputable |@\[[^\]]*\] *)*(theorem|lemma|def|instance|example)\b\s*(\S+)?', l)
        if m:
            return m.group(2) if m.group(1) != 'example' else 'example'
    return '?'


def build(grace=40):
    """Run lake build, but stop it some time after the first error."""
    with open('/tmp/scratch/out.log', 'w') as f:
        p = subprocess.Popen(['lake', 'build'], cwd=DST, stdout=f, stderr=subprocess.STDOUT, start_new_session=True)
    since = None
    while p.poll() is None:
        time.sleep(2)
        if since is None and 'error:' in open('/tmp/scratch/out.log').read():
            since = time.time()
        if since is not None and time.time() - since > grace:
            os.killpg(p.pid, signal.SIGKILL)
            p.wait()
    return p.returncode, open('/tmp/scratch/out.log').read()


def run(m):
    restore()
    path = os.path.join(DST, 'Verif', m['file'])
    orig = open(path).read()
    assert orig.count(m['old']) >= 1, ('not found', m)
    open(path, 'w').write(orig.replace(m['old'], m['new'], 1))
    try:
        rc, out = build()
        failed = []
        bad = set()
        for f, l in re.findall(r'error: (?:\./)?(Verif/\S+?\.lean):(\d+):\d+', out):
            bad.add(f[:-5].replace('/', '.'))
            t = enclosing(os.path.join(DST, f), int(l))
            t = f[6:-5] + ':' + t
            if t not in failed:
                failed.append(t)
        imp = imports()
        blocked = set(bad)
        while True:
            new = {k for k, v in imp.items() if k not in blocked and any(x in blocked for x in v)}
            if not new:
                break
            blocked |= new
        props = sorted(x.split('.')[-1] for x in blocked - bad if '.Props.' in x)
        return rc, failed, props, out
    finally:
        open(path, 'w').write(orig)


if __name__ == '__main__':
    sync()
    for m in json.load(open(sys.argv[1])):
        while os.path.exists('/tmp/scratch.pause'):
            time.sleep(5)
        rc, failed, props, out = run(m)
        rec = {'definition': m['definition'], 'file': m['file'], 'edit': m['edit'], 'claim': m['claim'],
               'theorems_failed': failed, 'dependent_modules_blocked': props, 'theorems_tightened': []}
        if rc == 0:
            rec['survived'] = True
        print(json.dumps(rec)[:400], flush=True)
        with open(LOG, 'a') as f:
            f.write(json.dumps(rec) + '\n')
