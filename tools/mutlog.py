#!/usr/bin/env python3
"""Write seeded/LOG.jsonl from the results of tools/mutate.py.

usage: mutlog.py <results.jsonl> [results.jsonl ...]   (later results of one mutation replace earlier ones)

seeded/review.json holds what was decided by hand: {"M001": {"verdict": "...", "tightened": ["..."]}}.
A theorem has failed directly when its own proof script no longer checks, and through a lemma when only a lemma it
uses no longer checks.
With run = "stopped early" (QUICK in mutate.py) the build was not finished: the failed theorems are those that use a
broken declaration in the unchanged project, and theorems further on were not tried.
For M416-M418, M429-M433, M453 and M455-M480 that list was corrected by hand, since lemma names of common form were counted too often.
The attempts A001-A134 (seeded/auto.json) are edits chosen by tools/automut.py; each run but those of A008 and A049
stopped at the first build with a broken declaration.  A125 does not compile and A135-A140 were not run.  Their lists of failed theorems are not corrected by hand, so they can be too long, and whether
each of these statements becomes false was not examined.
"""
import json, os, re, sys

root = os.path.join(os.path.dirname(os.path.abspath(__file__)), '..')
mus = json.load(open(f'{root}/seeded/mutations.json')) + json.load(open(f'{root}/seeded/auto.json'))
rfile = f'{root}/seeded/review.json'
review = json.load(open(rfile)) if os.path.exists(rfile) else {}
res = {}
for f in sys.argv[1:]:
    for l in open(f):
        d = json.loads(l)
        if 'error' not in d:
            res[d['id']] = d
n = kill = 0
with open(f'{root}/seeded/LOG.jsonl', 'w') as out:
    for m in mus:
        d = res.get(m['id'])
        if d is None:
            continue
        n += 1
        lost = set(d['broken']) | set(d['removed'])
        direct = [t for t in d['failed'] if t.split('.', 1)[1] in lost]
        rv = review.get(m['id'], {})
        verdict = rv.get('verdict') or ('killed' if direct else 'killed through lemmas' if d['failed'] else 'survived')
        if m['id'][0] == 'A' and d['failed'] and 'verdict' not in rv:
            verdict += '; only the first broken build was looked at, the falsity of the statements was not examined'
        if re.search(r'becomes? false', verdict) and not re.search(r'by reading|read off|evaluat|proved|kernel|witness|checked', verdict):
            verdict += ' (read off the statement, not proved)'
        kill += bool(d['failed'])
        out.write(json.dumps(dict(
            id=m['id'], definition=m['definition'], edit=m['edit'], claim=m['claim'], failed=d['failed'],
            failed_directly=direct, lemmas_failed=[b for b in d['broken'] if 'Verif.' + b not in d['failed']],
            tightened=rv.get('tightened', []), verdict=verdict,
            run='stopped early' if d.get('quick') else 'full')) + '\n')
print(n, 'attempts,', kill, 'with failed theorems')
