#!/usr/bin/env python3
"""Append/replace properties: reads a python list of dicts from stdin (JSON), rewrites properties.jsonl sorted by id."""
import json,sys,os
P=os.path.join(os.path.dirname(__file__),'..','properties.jsonl')
d={}
for l in open(P):
    l=l.strip()
    if l:
        o=json.loads(l); d[o['id']]=o
for o in json.load(sys.stdin):
    assert set(o)>= {'id','title','statement','quantifier','why_tests_cant','anchors'}, o
    d[o['id']]=o
with open(P,'w') as f:
    for k in sorted(d): f.write(json.dumps(d[k],ensure_ascii=False)+'\n')
print(len(d))
