#!/usr/bin/env python3
"""Runs seeded bugs in a scratch copy: mutate.py LIST.py ; appends to seeded/LOG.jsonl.
LIST.py defines M = [(id, file, definition, old, new, edit, claim), ...]."""
import sys, json, re, subprocess, os, shutil
SRC = '/verif/lean'; DST = '/tmp/mut/lean'
ns = {}; exec(open(sys.argv[1]).read(), ns)
only = set(sys.argv[2:])
shutil.rmtree(DST, ignore_errors=True); subprocess.run(['cp', '-a', SRC, DST], check=True)
def thm_at(path, line):
    ls = open(path).read().split('\n')
    ns_ = []
    for i in range(min(line, len(ls)) - 1, -1, -1):
        m = re.match(r'\s*(?:@\[[^\]]*\]\s*)?(?:private |protected |noncomputable )*(theorem|lemma|def|instance|example|structure|inductive)\b\s*(\S*)', ls[i])
        if m: return (m.group(1) + ' ' if m.group(1) != 'theorem' else '') + m.group(2)
    return '?'
imports = {}
def mods():
    for root, _, fs in os.walk(DST + '/Verif'):
        for f in fs:
            if f.endswith('.lean'):
                p = os.path.join(root, f)
                m = os.path.relpath(p, DST)[:-5].replace('/', '.')
                imports[m] = re.findall(r'^import (Verif\.\S+)', open(p).read(), re.M)
mods()
def down(bad):
    bad = set(bad); ch = True
    while ch:
        ch = False
        for m, im in imports.items():
            if m not in bad and any(i in bad for i in im): bad.add(m); ch = True
    return bad
for (mid, f, d, old, new, edit, claim) in ns['M']:
    if only and mid not in only: continue
    p = os.path.join(DST, f); orig = open(p).read()
    if orig.count(old) != 1:
        print(mid, 'PATTERN COUNT', orig.count(old)); continue
    open(p, 'w').write(orig.replace(old, new))
    r = subprocess.run(['nice', 'lake', 'build'], cwd=DST, capture_output=True, text=True)
    out = r.stdout + r.stderr
    errs = re.findall(r'error: (Verif/\S+?\.lean):(\d+):\d+', out)
    failed = []
    for (ff, ln) in errs:
        t = thm_at(os.path.join(DST, ff), int(ln)); e = ff + ':' + t
        if e not in failed: failed.append(e)
    bm = {ff[:-5].replace('/', '.') for ff, _ in errs}
    dn = sorted(down(bm) - bm)
    rec = dict(id=mid, definition=d, file=f, edit=edit, claim_broken=claim, built=(r.returncode == 0), theorems_failed=failed, modules_no_longer_established=dn, theorems_tightened=[])
    print(json.dumps(rec, ensure_ascii=False)[:1500], flush=True)
    open('/tmp/mut/results.jsonl', 'a').write(json.dumps(rec, ensure_ascii=False) + '\n')
    open(p, 'w').write(orig)
