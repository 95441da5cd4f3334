"""Evaluate the mutations of the limbs (M433-M476) against C131_field and C132_scalar at sample values; prints what is wrong."""
import json,subprocess,sys,re
m={x['id']:x for x in json.load(open('/verif/seeded/mutations.json'))}
SC='''
open Verif EdProj in
#eval show IO Unit from do
  let l := 2 ^ 252 + 27742317777372353535851937790883648493
  let mut vs : List ℕ := [0, 1, 2, l - 1, l, l + 1, 2*l, 15*l, 2^252 - 1, 2^252, 2^253, 2^255 - 1, 2^255, 2^256 - 1, 2^256 - 2^64, 2^208, 2^208-1, 2^104+5]
  let mut x := 12345
  for _ in [0:40] do
    x := (x * 6364136223846793005 + 1442695040888963407) ^ 5 % (2 ^ 256 - 189)
    vs := x :: vs
  let mut bad : List String := []
  for n in vs do
    if Scalar.reduce n != some (n % l) then bad := s!"reduce {n}" :: bad
    if Scalar.neg n != some ((l - n % l) % l) then bad := s!"neg {n}" :: bad
    if Scalar.check n != some (decide (n < l)) then bad := s!"check {n}" :: bad
    for k in vs do
      if Scalar.mul n k != some (n * k % l) then bad := s!"mul {n} {k}" :: bad
      if Scalar.add n k != some ((n + k) % l) then bad := s!"add {n} {k}" :: bad
      let w := n + 2^256 * k
      if (Sc.ofWide w).map Sc.toNat != some (w % l) then bad := s!"wide {w}" :: bad
  let names := bad.map fun s => (s.splitOn " ").head!
  IO.println s!"RESULT {bad.length} {names.eraseDups} first: {bad.getLast?}"
'''
FE='''
open Verif EdProj in
#eval show IO Unit from do
  let p := 2 ^ 255 - 19
  let val (a : Fe) : ℕ := a.a0 + 2^51*a.a1 + 2^102*a.a2 + 2^153*a.a3 + 2^204*a.a4
  let lt (a : Fe) (n : ℕ) : Bool := a.a0 < n && a.a1 < n && a.a2 < n && a.a3 < n && a.a4 < n
  let sh (a : Fe) : String := s!"({a.a0},{a.a1},{a.a2},{a.a3},{a.a4})"
  let mut vs : List Fe := [⟨0,0,0,0,0⟩, ⟨1,0,0,0,0⟩, ⟨2^54-1,2^54-1,2^54-1,2^54-1,2^54-1⟩, ⟨2^51-19,2^51-1,2^51-1,2^51-1,2^51-1⟩, ⟨2^51-20,2^51-1,2^51-1,2^51-1,2^51-1⟩, ⟨2^51-1,2^51-1,2^51-1,2^51-1,2^51-1⟩, ⟨2^52,0,0,0,0⟩, ⟨0,0,0,0,2^53⟩]
  let mut x := 12345
  let mut ws : List ℕ := [0, 1, p - 1, p, 2^255 - 1, 2^255, 2^256 - 1]
  for _ in [0:25] do
    x := (x * 6364136223846793005 + 1442695040888963407) ^ 7 % (2 ^ 270 - 53)
    vs := ⟨x % 2^54, x / 2^54 % 2^54, x / 2^108 % 2^54, x / 2^162 % 2^54, x / 2^216 % 2^54⟩ :: vs
    ws := (x % 2^256) :: ws
  let mut bad : List String := []
  for a in vs do
    match a.neg with
    | some f => if !(lt f (2^52)) || (val f + val a) % p != 0 then bad := s!"neg {sh a}" :: bad
    | none => bad := s!"neg {sh a}" :: bad
    for k in [1,2,3,5] do
      match a.pow2k k with
      | some f => if !(lt f (2^52)) || val f % p != (val a % p) ^ 2 ^ k % p then bad := s!"pow2k {k} {sh a}" :: bad
      | none => bad := s!"pow2k {k} {sh a}" :: bad
    match a.square2 with
    | some f => if !(lt f (2^53)) || val f % p != 2 * val a ^ 2 % p then bad := s!"square2 {sh a}" :: bad
    | none => bad := s!"square2 {sh a}" :: bad
    for b in vs do
      match a.mul b with
      | some f => if !(lt f (2^52)) || val f % p != val a * val b % p then bad := s!"mul {sh a} {sh b}" :: bad
      | none => bad := s!"mul {sh a} {sh b}" :: bad
      match a.sub b with
      | some f => if !(lt f (2^52)) || (val f + val b) % p != val a % p then bad := s!"sub {sh a} {sh b}" :: bad
      | none => bad := s!"sub {sh a} {sh b}" :: bad
      match a.add b with
      | some f => if val f != val a + val b then bad := s!"add {sh a} {sh b}" :: bad
      | none => bad := s!"add {sh a} {sh b}" :: bad
  for a in vs ++ vs.map (fun a => ⟨a.a0 * 1023, a.a1 * 1023, a.a2 * 1023, a.a3 * 1023, a.a4 * 1023⟩) do
    match a.toBytes with
    | some l => if Codec.leVal l != val a % p then bad := s!"toBytes {sh a}" :: bad
    | none => bad := s!"toBytes {sh a}" :: bad
  for n in ws do
    if !(lt (Fe.ofNat n) (2^51)) || val (Fe.ofNat n) != n % 2^255 then bad := s!"ofNat {n}" :: bad
  let names := bad.map fun s => (s.splitOn " ").head!
  IO.println s!"RESULT {bad.length} {names.eraseDups} first: {bad.getLast?}"
'''
out=json.load(open('/tmp/mutlimb.json')) if len(sys.argv)>9 else {}
for i in ['orig-s','orig-f']+[f'M{k}' for k in list(range(433,453))+[454]+list(range(455,477))]:
    if i.startswith('orig'): fn='Model/EdScalar.lean' if i=='orig-s' else 'Model/EdLimb.lean'; ed=[]
    else: ed=m[i]['edits']; fn=ed[0]['file']
    s=open('/verif/lean/Verif/'+fn).read()
    for e in ed:
        assert e['file']==fn and s.count(e['old'])==e.get('count',1),i
        s=s.replace(e['old'],e['new'])
    s+= SC if 'Scalar' in fn else FE
    open('/tmp/mutlimb.lean','w').write(s)
    r=subprocess.run(['lake','env','lean','/tmp/mutlimb.lean'],cwd='/verif/lean',capture_output=True,text=True,timeout=600)
    o=[l for l in r.stdout.split('\n') if 'RESULT' in l] or [r.stdout[:600]]
    out[i]=o[0]; print(i,o[0][:230],flush=True)
    json.dump(out,open('/tmp/mutlimb.json','w'))
