#!/usr/bin/env python3
"""Run seeded bugs: each mutation edits one definition of the model in a scratch copy, rebuilds, and records which theorems
no longer prove. usage: mutate.py mutations.json (list of {file, old, new, definition, edit, claim}; optional targets limits what is rebuilt) -> appends to
seeded/LOG.jsonl. The scratch copy is /tmp/scratch/lean (cp -a of lean/ with build output)."""
import json, re, subprocess, sys, os, time, shutil
here = os.path.dirname(os.path.abspath(__file__))
src = os.path.join(here, '..', 'lean'); scr = os.environ.get('SCRATCH', '/tmp/scratch/lean')
log = os.path.join(here, '..', 'seeded', 'LOG.jsonl')
def sync():
    shutil.copy(os.path.join(src, 'Verif.lean'), os.path.join(scr, 'Verif.lean'))
    for root, _, fs in os.walk(os.path.join(src, 'Verif')):
        for f in fs:
            a = os.path.join(root, f); b = os.path.join(scr, os.path.relpath(a, src))
            if not os.path.exists(b) or open(a).read() != open(b).read(): shutil.copy(a, b)
def owner(path, line):
    name = None
    for i, l in enumerate(open(path), 1):
        if i > line: break
        m = re.match(r'(?:private |protected |@\[[^\]]*\] )*(?:theorem|lemma|def|example|instance|inductive|abbrev|structure)\s+([^\s:({\[]+)?', l)
        if m: name = m.group(1) or 'example'
    return name
sync()
if subprocess.run(['lake', 'build'], cwd=scr, capture_output=True).returncode: sys.exit('baseline does not build')
for mu in json.load(open(sys.argv[1])):
    sync()
    p = os.path.join(scr, 'Verif', mu['file'])
    s = open(p).read()
    if s.count(mu['old']) < 1:
        print('NOT FOUND', mu['file'], mu['old'][:60], flush=True); continue
    if s.count(mu['old']) > 1 and not mu.get('first'):
        print('AMBIGUOUS', s.count(mu['old']), mu['file'], mu['old'][:60], flush=True); continue
    open(p, 'w').write(s.replace(mu['old'], mu['new'], 1))
    t = time.time()
    r = subprocess.run(['lake', 'build'] + mu.get('targets', []), cwd=scr, capture_output=True, text=True)
    out = r.stdout + r.stderr
    if r.returncode and not re.search(r'error: Verif/', out):
        # the prover ran out of memory before it said what failed: check the targets again with a limit, so that it says so
        for tg in mu.get('targets', []):
            q = subprocess.run(['lake', 'env', 'lean', '-M', '7000', tg.replace('.', '/') + '.lean'], cwd=scr, capture_output=True, text=True)
            out += re.sub(r'(?m)^(Verif/\S+\.lean:\d+:\d+): error', r'error: \1', q.stdout + q.stderr)
    fails, model = [], []
    for m in re.finditer(r'error: (Verif/\S+\.lean):(\d+):\d+', out):
        n = owner(os.path.join(scr, m.group(1)), int(m.group(2)))
        f = f'{m.group(1)[6:-5]}.{n}'
        (model if f.startswith('Model/') else fails).append(f)
    fails = list(dict.fromkeys(fails))
    if model:
        print('MODEL DOES NOT BUILD', mu['definition'], mu['edit'], model, re.findall(r'error: .*', out)[:3], flush=True)
    else:
        rec = {'definition': mu['definition'], 'edit': mu['edit'], 'claim': mu['claim'], 'theorems_failed': fails, 'theorems_tightened': mu.get('tightened', [])}
        if 'note' in mu: rec['note'] = mu['note']
        open(log, 'a').write(json.dumps(rec, ensure_ascii=False) + '\n')
        print((('NO ANSWER' if r.returncode else 'SURVIVED') if not fails else 'killed'), mu['definition'], '|', mu['edit'], '|', mu['claim'][:40], '|', fails[:6], len(fails), f'{time.time()-t:.0f}s', flush=True)
sync()
