#!/usr/bin/env python3
"""Check the citations of the model: the cited file exists, the lines exist, and the cited item is named within them."""
import re, glob, os, sys
rs = {}
for ext in ('rs', 'pest'):
    for f in glob.glob('/repo/**/*.' + ext, recursive=True):
        rs[f] = open(f).read().split('\n')
n = bad = 0
here = os.path.dirname(os.path.abspath(__file__))
for f in sorted(glob.glob(os.path.join(here, '../lean/Verif/*.lean'))):
    t = open(f).read()
    for m in re.finditer(r'/?([\w/]+\.(?:rs|pest)):(\d+)(?:[-–](\d+))?', t):
        n += 1
        path, a, b = m.group(1), int(m.group(2)), int(m.group(3) or m.group(2))
        if m.group(0).startswith('/repo/'):
            path = m.group(0)[6:].split(':')[0]
        c = [k for k in rs if k.endswith('/' + path)]
        line = t.count('\n', 0, m.start()) + 1
        def say(why):
            global bad
            bad += 1
            print(f"{os.path.basename(f)}:{line}: {m.group(0)}: {why}")
        if not c:
            say('no such file'); continue
        if all(b > len(rs[k]) for k in c):
            say(f'{[len(rs[k]) for k in c]} lines'); continue
        pre = re.search(r'`([^`\n]+)`[^`()]{0,40}\(\s*$', t[max(0, m.start() - 160):m.start()])
        if pre:
            ids = re.findall(r'[A-Za-z_]\w+', pre.group(1))
            if ids and not any(i in '\n'.join(rs[k][max(0, a - 1):b]) for i in ids for k in c):
                near = []
                for k in c:
                    for i in ids:
                        near += [j + 1 for j, l in enumerate(rs[k]) if re.search(r'\b(fn|struct|enum|trait|impl|const|type|mod|macro_rules!)\b.*\b' + i + r'\b', l)]
                say(f'does not name {pre.group(1)}; defined at {sorted(set(near))[:6]}')
print(n, 'citations,', bad, 'doubtful')
