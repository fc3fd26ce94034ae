#!/usr/bin/env python3
"""setstatus.py C09 proved 'note' ...  (triples)"""
import json, sys, os
p = os.path.join(os.path.dirname(os.path.abspath(__file__)), 'status.json')
d = json.load(open(p))
a = sys.argv[1:]
for i in range(0, len(a), 3):
    d[a[i]] = [a[i+1], a[i+2]]
json.dump(dict(sorted(d.items())), open(p, 'w'), indent=1)
