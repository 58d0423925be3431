#!/usr/bin/env python3
"""Seeded-bug runner: seed.py BATCH.py
BATCH.py defines M = [dict(file, defn, old, new, claim, targets=None, note=""), ...].
Each entry is applied to a fresh scratch copy of /verif/lean, the targets are rebuilt and the failing declarations
are collected. One JSON line per entry is appended to /verif/seeded/LOG.jsonl."""
import json, os, re, shutil, subprocess, sys
SRC, SCR, LOG = '/verif/lean', '/tmp/scratch/lean', '/verif/seeded/LOG.jsonl'
ns = {}
exec(open(sys.argv[1]).read(), ns)
for m in ns['M']:
    os.makedirs('/tmp/scratch', exist_ok=True)
    subprocess.run(f'rm -rf {SCR}; cp -a {SRC} {SCR}', shell=True, check=True)
    f = f"{SCR}/Verif/{m['file']}"
    t = open(f).read()
    if t.count(m['old']) != 1:
        print('BADPATTERN', m['defn'], t.count(m['old']), flush=True); continue
    open(f, 'w').write(t.replace(m['old'], m['new']))
    targets = m.get('targets') or ['Verif']
    out = subprocess.run(['lake', 'build', *targets], cwd=SCR, capture_output=True, text=True)
    txt = out.stdout + out.stderr
    failed, bad, ex = [], set(), []
    for path, line in re.findall(r'error: (Verif/[\w/]+\.lean):(\d+):', txt):
        bad.add(path)
        ls = open(f'{SCR}/{path}').read().split('\n')
        for i in range(int(line) - 1, -1, -1):
            g = re.match(r'(?:@\[[^\]]*\]\s*)?(?:private |noncomputable |protected )*(theorem|lemma|def|example|instance|structure|abbrev)\b\s*([^\s:({\[]*)', ls[i])
            if g:
                n = g.group(2) or f'example({os.path.basename(path)}:{i+1})'
                if n not in failed: failed.append(n)
                break
    failmods = set(re.findall(r'^- (Verif[\w.]*)', txt, re.M))
    # modules that transitively import a failed module are not built
    imp = {}
    for d, _, fs in os.walk(f'{SCR}/Verif'):
        for x in fs:
            if x.endswith('.lean'):
                p = os.path.join(d, x); mod = os.path.relpath(p, SCR)[:-5].replace('/', '.')
                imp[mod] = re.findall(r'^import (Verif[\w.]*)', open(p).read(), re.M)
    dead = set(p[:-5].replace('/', '.') for p in bad)
    ch = True
    while ch:
        ch = False
        for k, v in imp.items():
            if k not in dead and any(x in dead for x in v): dead.add(k); ch = True
    blocked = []
    for k in dead:
        if k.replace('.', '/') + '.lean' in bad: continue
        blocked += re.findall(r'^theorem (C\d\d_\w+)', open(f"{SCR}/{k.replace('.', '/')}.lean").read(), re.M)
    rec = dict(definition=m['defn'], file=m['file'], edit=f"{m['old'].strip()}  ==>  {m['new'].strip()}", claim_broken=m['claim'],
               theorems_failed=failed, claims_no_longer_derivable=sorted(blocked)[:40], theorems_tightened=[], note=m.get('note', ''))
    if out.returncode == 0: rec['verdict'] = 'SURVIVED'
    else: rec['verdict'] = 'caught'
    open(LOG, 'a').write(json.dumps(rec, ensure_ascii=False) + '\n')
    print(rec['verdict'], m['defn'], '|', m['new'].strip()[:60], '|', failed[:8], len(blocked), flush=True)
