#!/usr/bin/env python3
"""Apply seeded bugs to a scratch copy of the model and record which theorems fail.

usage: seed.py MUTATIONS.json   (list of {file, def, edit, old, new, claim})
Scratch copy: /tmp/scratch (made from a snapshot of /verif/lean, with its build products).
"""
import json, os, re, signal, subprocess, sys, time
SRC = os.environ.get('SEED_SRC', '/tmp/seedsrc')
SCR = os.environ.get('SEED_SCRATCH', '/tmp/scratch')
muts = json.load(open(sys.argv[1]))
out = sys.argv[2] if len(sys.argv) > 2 else '/verif/seeded/LOG.jsonl'
subprocess.run(['rsync', '-a', '--delete', SRC + '/', SCR + '/'], check=False) if os.path.exists('/usr/bin/rsync') else \
    subprocess.run(f'rm -rf {SCR}; cp -r {SRC} {SCR}', shell=True, check=True)
decl = re.compile(r'^\s*(?:private |protected |noncomputable )*(theorem|lemma|def|instance|example)\b\s*([^\s:({\[]*)')
def enclosing(path, line, kind=False):
    name = '?'
    for i, l in enumerate(open(path, encoding='utf8'), 1):
        if i > line: break
        m = decl.match(l)
        if m: name = m.group(1) if kind else m.group(2) or m.group(1)
    return name
def deps():
    d = {}
    for root, _, fs in os.walk(SCR + '/Verif'):
        for f in fs:
            if f.endswith('.lean'):
                p = os.path.join(root, f); mod = os.path.relpath(p, SCR)[:-5].replace('/', '.')
                d[mod] = [l.split()[1] for l in open(p, encoding='utf8') if l.startswith('import Verif')]
    return d
def dependents(mods):
    d = deps(); s = set(mods)
    while True:
        n = {m for m in d if any(x in s for x in d[m])} | s
        if n == s: return s
        s = n
def theorems_of(mod):
    p = SCR + '/' + mod.replace('.', '/') + '.lean'
    return [m.group(1).split('.')[-1] for l in open(p, encoding='utf8') if (m := re.match(r'^theorem\s+(\S+)', l))]
def kill(q):
    try: os.killpg(q.pid, signal.SIGKILL)
    except ProcessLookupError: pass
    q.wait()
def build():
    """lake build, ended WAIT seconds after the first error; 'invalid' if the edit does not even type-check"""
    wait = float(os.environ.get('SEED_WAIT', '1e9'))
    path = SCR + '.log'
    q = subprocess.Popen(['nice', '-n', '19', 'lake', 'build'], cwd=SCR, stdout=open(path, 'w'),
                         stderr=subprocess.STDOUT, start_new_session=True)
    first = None
    while True:
        done = q.poll() is not None
        log = open(path, encoding='utf8', errors='replace').read()
        for e in re.finditer(r'error: (Verif/Model/\S+?\.lean):(\d+):\d+', log):
            if enclosing(SCR + '/' + e.group(1), int(e.group(2)), True) == 'def':
                kill(q); return log, 'invalid'
        if first is None and re.search(r'error: Verif/', log): first = time.time()
        if done: return log, q.returncode
        if first is not None and time.time() - first > wait:
            kill(q); return log, 1
        time.sleep(1)
for k, m in enumerate(muts):
    if k < int(os.environ.get('SEED_FROM', '0')): continue
    p = f"{SCR}/Verif/{m['file']}"
    orig = open(f"{SRC}/Verif/{m['file']}", encoding='utf8').read()
    if orig.count(m['old']) != 1:
        print('BAD', k, m['def'], orig.count(m['old'])); continue
    open(p, 'w', encoding='utf8').write(orig.replace(m['old'], m['new']))
    subprocess.run(f'rm -rf {SCR}/.lake/build; cp -a {SRC}/.lake/build {SCR}/.lake/build', shell=True, check=True)
    t = time.time()
    log, code = build()
    if code == 'invalid':
        print(k, m['def'], 'INVALID', round(time.time() - t), flush=True)
        open(p, 'w', encoding='utf8').write(orig); continue
    failed, mods = [], set()
    for e in re.finditer(r'error: (Verif/\S+?\.lean):(\d+):\d+', log):
        f, ln = e.group(1), int(e.group(2))
        n = enclosing(SCR + '/' + f, ln); mods.add(f[:-5].replace('/', '.'))
        if n not in failed: failed.append(n)
    blocked = sorted({t for x in dependents(mods) - mods for t in theorems_of(x) if re.match(r'C\d\d', t)})
    direct = [t for t in failed]
    if not m['claim']:
        m['claim'] = ', '.join(sorted({t[:3] for t in direct + blocked if re.match(r'C\d\d', t)}))
    rec = {'definition': m['def'], 'file': 'lean/Verif/' + m['file'], 'edit': m['edit'], 'claim': m['claim'],
           'failed': direct, 'not_provable_because_a_lemma_failed': blocked, 'tightened': []}
    if code == 0: rec['failed'] = []; rec['survived'] = True
    print(k, m['def'], 'SURVIVED' if code == 0 else direct[:4], len(blocked), round(time.time() - t), flush=True)
    open(out, 'a', encoding='utf8').write(json.dumps(rec, ensure_ascii=False) + '\n')
    open(p, 'w', encoding='utf8').write(orig)
