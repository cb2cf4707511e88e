#!/usr/bin/env python3
"""Checks that every anchor in properties.jsonl names a file of /repo, and that the identifiers after the colon occur in it."""
import json, os, re, sys
bad = n = 0
for l in open('/verif/properties.jsonl'):
    d = json.loads(l)
    for s in d['anchors']:
        n += 1
        f, _, names = s.partition(':')
        if not os.path.isfile('/repo/' + f): print(d['id'], 'no such file:', s); bad += 1; continue
        t = open('/repo/' + f, errors='replace').read()
        for x in re.findall(r'[A-Za-z_]\w*', names):
            if not re.search(r'\b%s\b' % x, t): print(d['id'], 'not in the file:', x, '|', s); bad += 1
print(n, 'anchors', bad, 'bad'); sys.exit(bad > 0)
