#!/usr/bin/env python3
"""Seeded bugs: apply each edit of a seeds file to a scratch copy of the Lean project, rebuild, and
append one line per edit to seeded/LOG.jsonl. Usage: seed.py SEEDS.jsonl
A seed has: module, definition, old, new, claim, properties."""
import json, os, re, shutil, subprocess, sys
SRC = '/verif/lean'
DIR = '/tmp/seed/lean'
LOG = '/verif/seeded/LOG.jsonl'

def fresh():
    shutil.rmtree(DIR, ignore_errors=True)
    subprocess.run(['cp', '-a', '/tmp/seed/base', DIR], check=True)

def decls(path):
    out = []
    for n, l in enumerate(open(path), 1):
        m = re.match(r'(?:@\[.*\]\s*)?(?:private |protected |noncomputable )*(?:theorem|def|example|structure|instance|inductive|abbrev)\b\s*(\S*)', l)
        if m: out.append((n, m.group(1) or 'example'))
    return out

def enclosing(path, line):
    name = '?'
    for n, d in decls(path):
        if n > line: break
        name = d
    return name

def props(path):
    return re.findall(r'^theorem (C\d\d_\w+)', open(path).read(), re.M)

def imports(path):
    return re.findall(r'^import Verif\.(\w+)', open(path).read(), re.M)

def run(seed):
    fresh()
    f = f"{DIR}/Verif/{seed['module']}.lean"
    s = open(f).read()
    parts = seed['definition'].split('.')
    for k in range(len(parts)):
        m = re.search(r'(?:def|theorem|inductive|structure) (?:\w+\.)*' + re.escape('.'.join(parts[k:])) + r'\b', s)
        if m: break
    i = m.start()
    j = s.find(seed['old'], i)
    assert j >= 0, seed
    s = s[:j] + seed['new'] + s[j + len(seed['old']):]
    open(f, 'w').write(s)
    env = dict(os.environ, LEAN_NUM_THREADS='2')
    p = subprocess.run(['timeout', '2400', 'lake', 'build'], cwd=DIR, env=env, capture_output=True, text=True)
    txt = p.stdout + p.stderr
    failed = []
    bad = set()
    for m in re.finditer(r'^error: (?:\./)?Verif/(\w+)\.lean:(\d+):', txt, re.M):
        mod, line = m.group(1), int(m.group(2))
        bad.add(mod)
        d = f"{mod}.{enclosing(f'{DIR}/Verif/{mod}.lean', line)}"
        if d not in failed: failed.append(d)
    # modules that depend on a failed one are not built
    down = set(bad)
    mods = {x[:-5]: imports(f'{DIR}/Verif/{x}') for x in os.listdir(DIR + '/Verif') if x.endswith('.lean')}
    ch = True
    while ch:
        ch = False
        for a, ims in mods.items():
            if a not in down and any(b in down for b in ims):
                down.add(a); ch = True
    blocked = sorted({c for a in down for c in props(f'{DIR}/Verif/{a}.lean')})
    hit = [c for c in blocked if c[:3] in seed['properties']]
    return p.returncode, failed, hit, txt

def main():
    if not os.path.isdir('/tmp/seed/base') or '--base' in sys.argv:
        shutil.rmtree('/tmp/seed/base', ignore_errors=True)
        os.makedirs('/tmp/seed', exist_ok=True)
        subprocess.run(['cp', '-a', SRC, '/tmp/seed/base'], check=True)
    for l in open(sys.argv[1]):
        if not l.strip(): continue
        seed = json.loads(l)
        rc, failed, hit, txt = run(seed)
        e = {'definition': f"{seed['module']}.{seed['definition']}", 'edit': f"{seed['old']}  =>  {seed['new']}",
             'claim': seed['claim'], 'properties': seed['properties'], 'caught': rc != 0,
             'failed': failed[:12], 'property_theorems_lost': hit, 'tightened': []}
        if rc != 0 and not failed: e['note'] = txt[-400:]
        open('/tmp/seed/results.jsonl', 'a').write(json.dumps(e) + '\n')
        print(('caught ' if rc else 'SURVIVED ') + e['definition'] + ' ' + e['edit'][:80].replace('\n', ' ') + ' | ' + ' '.join(failed[:5]), flush=True)
main()
