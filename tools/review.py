#!/usr/bin/env python3
"""Add verdicts to seeded/review.json: review.py M001 'verdict' [tightened ...]"""
import json, os, sys
f = os.path.join(os.path.dirname(os.path.abspath(__file__)), '..', 'seeded', 'review.json')
d = json.load(open(f))
e = {'verdict': sys.argv[2]}
if sys.argv[3:]:
    e['tightened'] = sys.argv[3:]
d[sys.argv[1]] = e
json.dump(d, open(f, 'w'), indent=1, ensure_ascii=False)
