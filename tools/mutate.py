#!/usr/bin/env python3
"""Mutation tests: apply wrong edits to a scratch copy of the model and see which theorems stop proving.

usage: mutate.py SCRATCH LIST.json   (SCRATCH is a copy of /verif/lean outside /verif)
LIST.json: [{"file", "definition", "old", "new", "edit", "claim", "property", "targets": [modules]}]
Every attempt appends one line to /verif/seeded/LOG.jsonl."""
import json, os, re, signal, subprocess, sys, threading, time
scratch, lst = sys.argv[1:3]
log = '/verif/seeded/LOG.jsonl'

def theorem_at(path, line):
    name = None
    for i, l in enumerate(open(path), 1):
        m = re.match(r'(?:noncomputable |private |protected )*(theorem|def|example|structure|instance|lemma|inductive)\s*(\S*)', l)
        if m: name = m.group(2) if m.group(1) != 'example' else 'example'
        if i >= line: break
    return name

def build(targets, grace=15):
    """lake build; stopped `grace` seconds after the first error, since lake would go on with unrelated modules"""
    p = subprocess.Popen(['nice', '-n', '10', 'lake', 'build'] + targets, cwd=scratch, stdout=subprocess.PIPE,
                         stderr=subprocess.STDOUT, text=True, start_new_session=True)
    out, timer = [], None
    for l in p.stdout:
        out.append(l)
        if timer is None and 'error: Verif/' in l:
            timer = threading.Timer(grace, lambda: os.killpg(p.pid, signal.SIGKILL))
            timer.start()
    p.wait()
    if timer: timer.cancel()
    return ''.join(out), p.returncode

for m in json.load(open(lst)):
    path = os.path.join(scratch, 'Verif', m['file'])
    orig = open(path).read()
    if orig.count(m['old']) != 1:
        print('SKIP', m['definition'], 'pattern occurs', orig.count(m['old'])); continue
    open(path, 'w').write(orig.replace(m['old'], m['new']))
    try:
        out, code = build(m['targets'])
    finally:
        open(path, 'w').write(orig)
    failed = []
    for e in re.finditer(r'error: (Verif/\S+?\.lean):(\d+):\d+:', out):
        t = theorem_at(os.path.join(scratch, e.group(1)), int(e.group(2)))
        f = e.group(1)[6:-5].replace('/', '.') + ': ' + str(t)
        if f not in failed: failed.append(f)
    if code != 0 and not failed:  # e.g. an unknown target: nothing was checked, so this is no survivor
        print('NOBUILD ', m['definition'], '|', m['edit'], '|', out.strip()[-200:], flush=True); continue
    props = []
    if failed:
        for t in m['targets']:
            p = os.path.join(scratch, t.replace('.', '/') + '.lean')
            for pr in m['property'].split():
                props += re.findall(r'^theorem (%s\w*)' % pr, open(p).read(), re.M)
    if any(f.startswith('Model') and f.endswith(': ' + m['definition']) for f in failed):
        print('INVALID ', m['definition'], '|', m['edit'], '| the edited definition is rejected', flush=True); continue
    rec = {'definition': m['definition'], 'edit': m['edit'], 'claim': m['property'] + ': ' + m['claim'],
           'failed_directly': failed, 'properties_no_longer_proved': props, 'caught': bool(failed), 'tightened': m.get('tightened', [])}
    open(log, 'a').write(json.dumps(rec, ensure_ascii=False) + '\n')
    print(('caught  ' if failed else 'SURVIVED'), m['definition'], '|', m['edit'], '|', failed[:3], flush=True)
