#!/usr/bin/env python3
"""Seed wrong programs: apply each mutation of a JSON list to a scratch copy of the Lean project,
rebuild, and log which theorems stop proving.
usage: mutate.py mutations.json   (each: {file, definition, old, new, edit, claim, tightened?})"""
import json, os, re, shutil, subprocess, sys
root = os.path.dirname(os.path.dirname(os.path.abspath(__file__)))
scratch = '/root/scratch/lean'
if not os.path.exists(scratch):
    os.makedirs('/root/scratch', exist_ok=True)
    shutil.copytree(root + '/lean', scratch)
else:
    subprocess.run(['rsync', '-a', '--delete', '--exclude', '.lake', root + '/lean/', scratch + '/']) if shutil.which('rsync') else None
    if not shutil.which('rsync'):
        for d, _, fs in os.walk(root + '/lean'):
            if '.lake' in d: continue
            for f in fs:
                src = os.path.join(d, f); dst = src.replace(root + '/lean', scratch)
                os.makedirs(os.path.dirname(dst), exist_ok=True)
                if not os.path.exists(dst) or open(src, 'rb').read() != open(dst, 'rb').read():
                    shutil.copyfile(src, dst)
def enclosing(path, line):
    name = '?'
    for i, l in enumerate(open(path), 1):
        m = re.match(r'(?:@\[.*\]\s*)?(?:private |noncomputable |protected )*(theorem|def|example|instance|abbrev|lemma)\b\s*(\S*)', l)
        if m: name = m.group(2) if m.group(1) != 'example' else f'example@{i}'
        if i >= line: break
    return name
muts = json.load(open(sys.argv[1]))
for m in muts:
    path = os.path.join(scratch, m['file'])
    orig = open(path).read()
    n = orig.count(m['old'])
    if n != 1:
        print('!! pattern occurs', n, 'times:', m['old'][:60]); continue
    open(path, 'w').write(orig.replace(m['old'], m['new']))
    out = subprocess.run(['lake', 'build'], cwd=scratch, capture_output=True, text=True)
    txt = out.stdout + out.stderr
    failed = []
    for g in re.finditer(r'error: (Verif/\S+\.lean):(\d+):', txt):
        e = enclosing(os.path.join(scratch, g.group(1)), int(g.group(2)))
        if e not in failed: failed.append(e)
    open(path, 'w').write(orig)
    ok = 'Build completed successfully' in txt
    print('SURVIVED' if ok else 'killed  ', m['definition'], '|', m['edit'], '|', failed)
    rec = {'definition': m['definition'], 'edit': m['edit'], 'claim': m['claim'], 'theorems_failed': failed, 'theorems_tightened': m.get('tightened', [])}
    if ok: rec['survived'] = True; rec['comment'] = m.get('comment', '')
    with open(root + '/seeded/LOG.jsonl', 'a') as f: f.write(json.dumps(rec) + '\n')
