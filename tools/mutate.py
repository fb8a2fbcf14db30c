#!/usr/bin/env python3
"""Seeded-bug experiment: JSON list on stdin of {file, def, old, new, edit, claim, target}.
Copies lean/ to /tmp/mut/lean, applies one edit at a time, builds target, logs to seeded/LOG.jsonl."""
import json, sys, os, re, subprocess, shutil
root = os.path.dirname(os.path.dirname(os.path.abspath(__file__)))
W = '/tmp/mut/lean'
subprocess.run(['rsync', '-a', '--delete', root + '/lean/', W + '/'], check=False) if shutil.which('rsync') else (shutil.rmtree(W, ignore_errors=True), shutil.copytree(root + '/lean', W, symlinks=True))
DRY = '--dry' in sys.argv
def decl_at(path, line):
    ls = open(path).read().split('\n')
    for i in range(min(line, len(ls)) - 1, -1, -1):
        m = re.match(r'\s*(?:@\[[^\]]*\]\s*)?(?:private\s+|noncomputable\s+)*(theorem|lemma|def|example|instance|abbrev)\s*([^\s({\[:]*)', ls[i])
        if m: return (m.group(2) or m.group(1)) if m.group(1) != 'example' else 'example@%d' % (i + 1)
    return '?'
for e in json.load(sys.stdin):
    f = os.path.join(W, e['file'])
    src = open(f).read()
    n = src.count(e['old'])
    if n != 1:
        print('SKIP old occurs', n, e['def'], e['edit']); continue
    open(f, 'w').write(src.replace(e['old'], e['new']))
    r = subprocess.run(['lake', 'build'] + e['target'].split(), cwd=W, capture_output=True, text=True)
    out = r.stdout + r.stderr
    failed = []
    for m in re.finditer(r'error: (Verif/\S+\.lean):(\d+):', out):
        d = decl_at(os.path.join(W, m.group(1)), int(m.group(2)))
        if d not in failed: failed.append(d)
    open(f, 'w').write(src)
    rec = {'definition': e['def'], 'edit': e['edit'], 'claim_broken': e['claim'], 'theorems_failed': failed, 'theorems_tightened': e.get('tightened', [])}
    print(('KILLED ' if failed else ('BUILD-ERR ' if r.returncode else 'SURVIVED ')) + json.dumps(rec))
    if not failed and r.returncode: print(out[-1500:])
    if not DRY: open(root + '/seeded/LOG.jsonl', 'a').write(json.dumps(rec, ensure_ascii=False) + '\n')
