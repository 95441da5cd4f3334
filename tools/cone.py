#!/usr/bin/env python3
"""List the definitions under lean/Verif/Model that no statement of a theorem in MANIFEST.json speaks of.

Follows the constants in the types of the theorems through definitions, not through proofs. Prints nothing but the count when
every definition is reached. Needs a built project.
"""
import json, os, re, subprocess, tempfile

root = os.path.join(os.path.dirname(os.path.abspath(__file__)), '..')
ts = [t for c in json.load(open(f'{root}/MANIFEST.json'))['claims'] for t in c['theorems']]
src = '''import Verif
open Lean
def thms : List Name := [%s]
def run : CoreM Unit := do
  let env ← getEnv
  let mut seen : NameSet := {}
  let mut st : Array Name := #[]
  for t in thms do
    let some ci := env.find? t | throwError "no {t}"
    for c in ci.type.getUsedConstants do
      if !seen.contains c then seen := seen.insert c; st := st.push c
  while st.size > 0 do
    let n := st.back!
    st := st.pop
    let some ci := env.find? n | continue
    let mut cs := ci.type.getUsedConstants
    match ci with
    | .defnInfo d => cs := cs ++ d.value.getUsedConstants
    | .inductInfo i => for k in i.ctors do cs := cs.push k
    | .opaqueInfo o => cs := cs ++ o.value.getUsedConstants
    | _ => pure ()
    for c in cs do
      if !seen.contains c then seen := seen.insert c; st := st.push c
  for (n, ci) in env.constants.map₁.toList do
    let some i := env.getModuleIdxFor? n | continue
    let m := env.header.moduleNames[i.toNat]!
    if !(`Verif.Model).isPrefixOf m || n.isInternal then continue
    if let .defnInfo _ := ci then IO.println s!"{seen.contains n} {m} {n}"
#eval run
''' % ', '.join('`' + t for t in ts)
with tempfile.NamedTemporaryFile('w', suffix='.lean', delete=False) as f:
    f.write(src)
out = subprocess.run(['lake', 'env', 'lean', f.name], cwd=f'{root}/lean', stdout=subprocess.PIPE, text=True).stdout
os.unlink(f.name)
made = re.compile(r'noConfusion|\.match_|casesOn|recOn|_sizeOf|[cC]torIdx|ctorElim|below|brecOn|\.inst|\.elim$|\.ofNat$|\.toCtor|_proof')
ls = [l for l in out.splitlines() if l.startswith(('true', 'false')) and not made.search(l)]
for l in ls:
    if l.startswith('false'):
        print(l[6:])
print(sum(l.startswith('true') for l in ls), 'reached,', sum(l.startswith('false') for l in ls), 'not')
