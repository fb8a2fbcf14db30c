#!/usr/bin/env python3
"""Random operator mutations of the model definitions (those whose doc comment cites a source file).
usage: automut.py SEED PER_DEF OUT [DIR...]   -- scratch copy in /tmp/am/lean; survivors go to OUT (JSON lines)."""
import json, sys, os, re, subprocess, random, glob, signal, time
root = os.path.dirname(os.path.dirname(os.path.abspath(__file__)))
W = '/tmp/am/lean'
seed, per, out = int(sys.argv[1]), int(sys.argv[2]), sys.argv[3]
dirs = sys.argv[4:]
random.seed(seed)
os.makedirs('/tmp/am', exist_ok=True)
subprocess.run(['rm', '-rf', W]); subprocess.run(['cp', '-a', root + '/lean', W], check=True)
RULES = [(r' < ', ' ≤ '), (r' ≤ ', ' < '), (r' == ', ' != '), (r' != ', ' == '), (r' \+ 1\b', ''), (r' - 1\b', ''),
  (r'\btrue\b', 'false'), (r'\bfalse\b', 'true'), (r' && ', ' || '), (r' \|\| ', ' && '), (r' \+ ', ' - '), (r' - ', ' + '),
  (r' \* ', ' + '), (r'\.1\b', '.2'), (r'\.2\b', '.1'), (r'(?<=[ (])0\b', '1'), (r'(?<=[ (])1\b', '0'), (r' / ', ' % '), (r' % ', ' / '),
  (r' ∧ ', ' ∨ '), (r' ∨ ', ' ∧ '), (r' ≠ ', ' = '), (r' ∈ ', ' ∉ '), (r' max ', ' min '), (r' min ', ' max '), (r'\.take\b','.drop'), (r'\.drop\b','.take'), (r'\.any\b','.all'), (r'\.all\b','.any'),
  (r'(?<=[(\[ ])!', '')]
mods = {}
for p in glob.glob(root + '/lean/Verif/**/*.lean', recursive=True):
    rel = os.path.relpath(p, root + '/lean'); mods[rel[:-5].replace('/', '.')] = rel
imp = {m: re.findall(r'^import (Verif\.\S+)', open(root + '/lean/' + r).read(), re.M) for m, r in mods.items()}
def dependents(m):
    s = {m}; ch = True
    while ch:
        ch = False
        for k, v in imp.items():
            if k not in s and any(x in s for x in v): s.add(k); ch = True
    d = m.split('.')[1]
    same = sorted(k for k in s if k.split('.')[1] == d)
    return same
def sites(src):
    res = []
    for m in re.finditer(r'/--(?P<doc>(?:(?!-/).)*)-/\s*\n(?:@\[[^\]]*\]\s*)?(?:private |noncomputable |protected )*(?:def|abbrev)\s+(?P<n>[^\s({\[:]+)(?P<body>.*?)(?=\n\s*\n|\Z)', src, re.S):
        if not re.search(r'\.(cpp|py|hpp|h|pyx|c|cuh)\b', m.group('doc')): continue
        b0, b1 = m.span('body'); body = m.group('body')
        k = body.find(':=')
        k2 = body.find('\n  |')
        st = min([x for x in (k, k2) if x >= 0], default=-1)
        if st < 0: continue
        c = []
        for rx, new in RULES:
            for q in re.finditer(rx, body):
                if q.start() > st: c.append((b0 + q.start(), b0 + q.end(), new))
        for q in re.finditer(r'then ([^\n]+?) else ([^\n]+)', body):
            c.append((b0 + q.start(), b0 + q.end(), 'then ' + q.group(2) + ' else ' + q.group(1)))
        for q in re.finditer(r'with ([^\n{}]*?), ', body):
            c.append((b0 + q.start(), b0 + q.end(), 'with '))
        if c: res.append((m.group('n'), b0, b1, c))
    return res
todo = []
for mname, rel in sorted(mods.items()):
    if dirs and mname.split('.')[1] not in dirs: continue
    src = open(W + '/' + rel).read()
    for n, b0, b1, c in sites(src):
        for s in random.sample(c, min(per, len(c))): todo.append((mname, rel, n, b0, b1, s))
random.shuffle(todo)
print('mutants', len(todo), flush=True)
cnt = {}
for i, (mname, rel, n, b0, b1, (a, b, new)) in enumerate(todo):
    f = W + '/' + rel; src = open(f).read()
    mut = src[:a] + new + src[b:]
    l0, l1 = src[:b0].count('\n') + 1, src[:b1].count('\n') + 1
    open(f, 'w').write(mut)
    t = time.time()
    p = subprocess.Popen(['taskset', '-c', '2,3', 'nice', 'lake', 'build'] + dependents(mname), cwd=W, stdout=subprocess.PIPE, stderr=subprocess.STDOUT, text=True, start_new_session=True)
    verdict = 'SURVIVED'
    for line in p.stdout:
        m = re.search(r'error: (Verif/\S+\.lean):(\d+):', line)
        if m:
            verdict = 'invalid' if (m.group(1) == rel and l0 <= int(m.group(2)) <= l1) else 'killed'
            break
        if 'error:' in line and 'Lean exited' not in line and verdict == 'SURVIVED': verdict = 'error'
        if time.time() - t > 600: verdict = 'timeout'; break
    try: os.killpg(p.pid, signal.SIGKILL)
    except Exception: pass
    p.wait()
    open(f, 'w').write(src)
    cnt[verdict] = cnt.get(verdict, 0) + 1
    ls = src[:a].rfind('\n') + 1; le = mut.find('\n', a)
    rec = {'v': verdict, 'mod': mname, 'def': n, 'line': src[:a].count('\n') + 1, 'old': src[a:b], 'new': new, 'text': mut[ls:le if le >= 0 else None], 's': round(time.time() - t)}
    if verdict not in ('killed', 'invalid'): open(out, 'a').write(json.dumps(rec, ensure_ascii=False) + '\n')
    open(out + '.all', 'a').write(json.dumps(rec, ensure_ascii=False) + '\n')
    if i % 20 == 0: print(i, cnt, flush=True)
print('done', cnt)
