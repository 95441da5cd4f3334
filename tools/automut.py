#!/usr/bin/env python3
"""Generates wrong programs mechanically: one small change in one definition of the model.

usage: automut.py <lean dir> <out.json> <number> [seed]

Every change is a small replacement in one line of the body of a definition in Model/ (comparison, connective, number, sign,
projection, a guard left out). Changes after which the file itself does not compile are dropped; the rest is sampled evenly
over the definitions.
"""
import json, os, random, re, subprocess, sys

SKIP = {'Tests', 'Laws', 'ErrorText', 'Ed25519'}
SWAPS = [(r' < ', ' ≤ '), (r' ≤ ', ' < '), (r' ≠ ', ' = '), (r' = ', ' ≠ '), (r' ∨ ', ' ∧ '), (r' ∧ ', ' ∨ '), (r' \+ ', ' - '), (r' - ', ' + '),
         (r'\b0\b', '1'), (r'\b1\b', '0'), (r'\b1\b', '2'), (r'\.1\b', '.2'), (r'\.2\b', '.1'), (r'\btrue\b', 'false'), (r'\bfalse\b', 'true'),
         (r' && ', ' || '), (r' \|\| ', ' && '), (r' \* ', ' + '), (r' == ', ' != '), (r' != ', ' == '), (r'¬ ', ''), (r'\.g1\b', '.g2'), (r'\.g2\b', '.g1'),
         (r'\.encs\b', '.comms'), (r'\.comms\b', '.encs'), (r'\.degree\b', '.numParticipants'), (r'\.numParticipants\b', '.degree'),
         (r'\.take\b', '.drop'), (r'\.drop\b', '.take')]

def defs(path):
    """(name, list of line numbers of the body) for every definition"""
    L = open(path).read().split('\n')
    out, cur, comment = [], None, False
    for i, l in enumerate(L):
        if comment:
            if '-/' in l:
                comment = False
            continue
        if l.startswith('/-'):
            if '-/' not in l:
                comment = True
            cur = None
            continue
        m = re.match(r'(?:@\[[^\]]*\]\s*)?(?:private |noncomputable )*(?:def|abbrev) (\S+)', l)
        if m:
            cur = (m.group(1), [])
            out.append(cur)
            body = l.split(':=', 1)
            if len(body) == 2 and body[1].strip():
                cur[1].append(i)
        elif re.match(r'\S', l):
            cur = None
        elif cur and l.strip() and not l.strip().startswith('--'):
            cur[1].append(i)
    return L, out

def mutants(path):
    L, ds = defs(path)
    for name, idx in ds:
        for i in idx:
            l = L[i]
            start = l.index(':=') + 2 if re.match(r'\S', l) else 0
            end = l.index('--') if '--' in l else len(l)
            if re.match(r'\s+if .* then \.err', l) and ' else ' not in l:
                yield name, i, l, ''
            for pat, new in SWAPS:
                for m in re.finditer(pat, l[start:end]):
                    a, b = start + m.start(), start + m.end()
                    if new.strip() == '≠' and l[:a].rstrip().endswith('let'):
                        continue
                    yield name, i, l, l[:a] + new + l[b:]

def main():
    lean, out, number = sys.argv[1], sys.argv[2], int(sys.argv[3])
    rnd = random.Random(int(sys.argv[4]) if len(sys.argv) > 4 else 1)
    model = os.path.join(lean, 'Verif', 'Model')
    by = {}
    for f in sorted(os.listdir(model)):
        if f[:-5] in SKIP:
            continue
        for name, i, old, new in mutants(os.path.join(model, f)):
            by.setdefault((f, name), []).append((i, old, new))
    keys = sorted(by)
    for k in keys:
        rnd.shuffle(by[k])
    res = []
    while len(res) < number and any(by.values()):
        rnd.shuffle(keys)
        for k in keys:
            while by[k]:
                i, old, new = by[k].pop()
                f, name = k
                L = open(os.path.join(model, f)).read().split('\n')
                L[i] = new
                tmp = '/tmp/auto/Mut.lean'
                open(tmp, 'w').write('\n'.join(L))
                if subprocess.run(['lake', 'env', 'lean', tmp], cwd=lean, stdout=subprocess.DEVNULL, stderr=subprocess.DEVNULL).returncode:
                    continue
                s = open(os.path.join(model, f)).read().split('\n')
                # widen the context until it occurs once
                a = b = i
                text = '\n'.join(s)
                while text.count('\n'.join(s[a:b + 1])) != 1 and a > 0:
                    a -= 1
                o = '\n'.join(s[a:b + 1])
                n = '\n'.join(s[a:i] + [new] + s[i + 1:b + 1])
                res.append(dict(id=f'A{len(res) + 1:03d}', definition=name, file=f, line=i + 1, edit=f'`{old.strip()}` becomes `{new.strip()}`',
                                edits=[dict(file='Model/' + f, old=o, new=n)]))
                break
            if len(res) >= number:
                break
    json.dump(res, open(out, 'w'), indent=1, ensure_ascii=False)
    print(len(res), 'mutants')

main()
