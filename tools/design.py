#!/usr/bin/env python3
"""stdin: JSON {"rows": ["| C.. | .. | .. |", ...], "bullets": ["- ..", ...]} -> DESIGN.md (row with same id replaced)."""
import json, sys, os
root = os.path.dirname(os.path.dirname(os.path.abspath(__file__)))
p = os.path.join(root, 'DESIGN.md')
s = open(p).read()
x = json.load(sys.stdin)
for r in x.get('rows', []):
    pid = r.split('|')[1].strip()
    lines = s.split('\n')
    hit = [i for i, l in enumerate(lines) if l.startswith('| %s |' % pid)]
    if hit:
        lines[hit[0]] = r
        s = '\n'.join(lines)
    else:
        s = s.replace('\n\n## Where the code violates', '\n' + r + '\n\n## Where the code violates', 1)
s = s.rstrip('\n') + '\n' + ''.join(b + '\n' for b in x.get('bullets', []))
open(p, 'w').write(s)
