#!/usr/bin/env python3
"""Mutation testing of the property theorems.

usage: mutate.py <scratch dir> <mutations.json> <results.jsonl> [id ...]

The scratch directory must contain `base/`, a built copy of /verif/lean.  For every mutation the model is edited
in `work/`, the project is rebuilt, and every declaration whose proof no longer checks is replaced by `sorry`
(or removed, when its statement no longer elaborates) until the build goes through.  A property theorem has
failed when it was removed or depends on `sorryAx`.

With QUICK=<dependency file> in the environment the loop stops as soon as the proof of a property theorem no longer checks;
the failed theorems are then those that depend on a broken declaration in the unchanged project (one line per declaration:
its name and the names it uses).  With FIRST=1 as well it stops after the first build with a broken declaration.
"""
import json, os, re, subprocess, sys, time

KW = re.compile(r'^(theorem|lemma|def|noncomputable|private|protected|instance|example|abbrev|structure|inductive|'
                r'section|namespace|end\b|open\b|variable|set_option|omit|@\[|/--|/-!|attribute|universe|include|local|scoped|#)')
PRE = re.compile(r'^(@\[|/--|set_option .* in\s*$|omit .* in\s*$|open .* in\s*$|include .* in\s*$)')

def chunks(lines):
    """list of (start, end) line ranges, doc comments and attributes joined to the declaration after them"""
    starts, i, incomment = [], 0, False
    pend = None
    while i < len(lines):
        l = lines[i]
        if l.startswith('/--') or l.startswith('/-!'):
            s = i
            while '-/' not in lines[i]:
                i += 1
            if pend is None:
                starts.append(s)
            if l.startswith('/--'):
                pend = s
            else:
                pend = None
            i += 1
            continue
        if KW.match(l):
            if pend is None:
                starts.append(i)
            pend = i if PRE.match(l) and not re.search(r'\b(theorem|def|lemma|instance)\b', l) else None
        i += 1
    starts.append(len(lines))
    return list(zip(starts, starts[1:]))

def body_pos(t):
    """position of the first `:=` at bracket depth 0, after the declaration keyword"""
    m = re.search(r'^(?:@\[[^\]]*\]\s*)?(?:private |protected |noncomputable )*(theorem|lemma|example|instance|def)\b', t, re.M)
    i, d = (m.end() if m else 0), 0
    while i < len(t) - 1:
        c = t[i]
        if c in '([{⟨':
            d += 1
        elif c in ')]}⟩':
            d -= 1
        elif d == 0 and t.startswith(':=', i):
            return i
        i += 1
    return None

def declname(t):
    m = re.search(r'^(?:@\[[^\]]*\]\s*)?(?:private |protected |noncomputable )*(theorem|lemma|example|instance|def|abbrev|structure)\b[ \t]*([^\s:({\[]*)', t, re.M)
    return (m.group(1), m.group(2)) if m else ('?', '')

def run(cmd, cwd, timeout=3000):
    p = subprocess.run(cmd, cwd=cwd, stdout=subprocess.PIPE, stderr=subprocess.STDOUT, text=True, timeout=timeout)
    return p.returncode, p.stdout

def dependents(path, names, theorems):
    """the theorems that use one of the names, directly or not"""
    uses = {}
    for l in open(path):
        n, *us = l.split()
        uses[n] = us
    ends = tuple('.' + n.removeprefix('_root_.Verif.') for n in names if n)
    bad = {n for n in uses if ends and n.endswith(ends)}
    def hit(n):
        st = [n]
        seen = set()
        while st:
            x = st.pop()
            if x in bad:
                return True
            if x in seen:
                continue
            seen.add(x)
            st += uses.get(x, [])
        return False
    return [t for t in theorems if hit(t)]

def mutate(scratch, mu, theorems):
    work = f'{scratch}/work'
    run(['rm', '-rf', work], scratch)
    run(['cp', '-a', f'{scratch}/base', work], scratch)
    for e in mu['edits']:
        path = f"{work}/Verif/{e['file']}"
        s = open(path).read()
        cnt = e.get('count', 1)
        assert s.count(e['old']) == cnt, (mu['id'], e['file'], 'found', s.count(e['old']), e['old'])
        open(path, 'w').write(s.replace(e['old'], e['new']))
    broken, removed, sorried = [], [], set()
    quick = os.environ.get('QUICK')
    for it in range(60):
        rc, out = run(['lake', 'build'], work)
        if rc == 0:
            break
        errs = {}
        for m in re.finditer(r'^error: (?:\./)?(Verif/\S+?\.lean):(\d+):(\d+)', out, re.M):
            errs.setdefault(m.group(1), set()).add(int(m.group(2)))
        if not errs:
            return dict(id=mu['id'], error=out[-2000:])
        for f, lns in errs.items():
            if '/Model/' in f:
                return dict(id=mu['id'], error='model file does not compile: ' + out[-3000:])
            lines = open(f'{work}/{f}').read().split('\n')
            new, hit = [], False
            cs = chunks(lines)
            if cs and cs[0][0] > 0:
                new += lines[:cs[0][0]]
            for a, b in cs:
                if any(a < n <= b for n in lns):
                    hit = True
                    t = '\n'.join(lines[a:b])
                    kind, name = declname(t)
                    key = (f, name, t[:200] if not name else '')
                    p = body_pos(t)
                    if kind in ('theorem', 'lemma') and p is not None and key not in sorried:
                        sorried.add(key)
                        broken.append(name)
                        new += (t[:p] + ':= by sorry\n').split('\n')
                    elif kind in ('instance',) and p is not None and key not in sorried:
                        sorried.add(key)
                        broken.append(name or 'instance')
                        new += (t[:p] + ':= sorry\n').split('\n')
                    else:
                        removed.append(name or f'{kind} in {f}')
                        new += ['']
                else:
                    new += lines[a:b]
            if not hit:
                return dict(id=mu['id'], error=f'no declaration at {f}:{lns}: ' + out[-1500:])
            open(f'{work}/{f}', 'w').write('\n'.join(new))
        if quick and (os.environ.get('FIRST') and broken + removed or any(re.match(r'C\d+', n) for n in broken)):
            return dict(id=mu['id'], broken=broken, removed=removed, failed=dependents(quick, broken + removed, theorems), quick=True)
    else:
        return dict(id=mu['id'], error='too many iterations')
    ax = 'import Verif\n' + ''.join(f'#print axioms {t}\n' for t in theorems)
    open(f'{work}/Ax.lean', 'w').write(ax)
    _, out = run(['lake', 'env', 'lean', 'Ax.lean'], work)
    ok, failed = set(), []
    for m in re.finditer(r"'([^']+)' (depends on axioms: \[[^\]]*\]|does not depend on any axioms)", out):
        (ok.add(m.group(1)) if 'sorryAx' not in m.group(2) else None)
    failed = [t for t in theorems if t not in ok]
    return dict(id=mu['id'], broken=broken, removed=removed, failed=failed)

if __name__ == '__main__':
    scratch, mfile, rfile, *ids = sys.argv[1:]
    man = json.load(open('/verif/MANIFEST.json'))
    theorems = [t for c in man['claims'] for t in c['theorems']]
    mus = json.load(open(mfile))
    done = set()
    if os.path.exists(rfile):
        done = {json.loads(l)['id'] for l in open(rfile) if 'error' not in json.loads(l)}
    for mu in mus:
        if ids and mu['id'] not in ids or (not ids and mu['id'] in done):
            continue
        t0 = time.time()
        try:
            res = mutate(scratch, mu, theorems)
        except Exception as ex:
            res = dict(id=mu['id'], error=repr(ex))
        res['seconds'] = round(time.time() - t0)
        open(rfile, 'a').write(json.dumps(res) + '\n')
        f = res.get('failed', [])
        print(mu['id'], res.get('error', '')[:300], len(f), 'failed;', res['seconds'], 's', flush=True)
