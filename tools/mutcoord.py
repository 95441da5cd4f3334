"""Evaluate the mutations of the coordinates of Ed25519 (M411-M432) over limbs at sample values; prints what differs from the
unmodified functions, which C130 and C131 show to be right."""
import json, subprocess, sys
m = {x['id']: x for x in json.load(open('/verif/seeded/mutations.json'))}
EV = '''
open Verif EdProj in
#eval show IO Unit from do
  let sha (l : List UInt8) : Bytes 64 := ⟨Codec.leBytes 64 (l.foldl (fun a x => (a * 6364136223846793005 + x.toNat + 77) ^ 3 % (2 ^ 512 - 569)) 5), Codec.length_leBytes _ _⟩
  let enc (n : ℕ) : Bytes 32 := ⟨Codec.leBytes 32 n, Codec.length_leBytes _ _⟩
  let hx (b : Bytes 32) : ℕ := Codec.leVal b.1
  let x := Codec.leVal (sha [1]).1 % 2 ^ 252
  let y := Codec.leVal (sha [2]).1 % 2 ^ 252
  for n in [x, y, 2^255 - 1, 2^252 - 1] do
    IO.println s!"naf {naf 5 n} {naf 8 n}"
    IO.println s!"radix {radix16 n} {radix2w 6 n} {radix2w 7 n} {radix2w 8 n}"
  let P : Ext Limb := mulBase 3
  let Q : Ext Limb := P.double.add Ext.base
  IO.println s!"invert {FE.toNat (invert P.y)}"
  IO.println s!"points {hx P.compress} {hx Q.compress} {hx Q.neg.compress} {hx (Q.subN P.toNiels).toExt.compress}"
  IO.println s!"eq {P.eq P} {P.eq P.neg} {P.eq Q}"
  IO.println s!"mulBase {hx (mulBase x : Ext Limb).compress}"
  IO.println s!"doubleBase {hx (doubleBase x Q y).compress}"
  IO.println s!"straus {hx (straus [(x, P), (y, Q), (7, Ext.base)]).compress}"
  IO.println s!"pippenger {hx (pippenger [(x, P), (y, Q), (7, Ext.base)]).compress}"
  IO.println s!"lastBucket {hx (pippenger [(32, P)]).compress}"
  for n in List.range 24 do
    for s in [0, 2 ^ 255] do
      IO.println s!"decompress {n} {(Ext.decompress (enc (n * n * 977 + s)) : Option (Ext Limb)).map fun e => hx e.compress}"
  let t8 := enc 0x7a03ac9277fdc74ec6cc392cfa53202a0f67100d760b3cba4fd84d3d706a17c7
  IO.println s!"small {(Ext.decompress t8 : Option (Ext Limb)).map fun e => (e.isSmallOrder, P.isSmallOrder)}"
  let o := ops Limb sha fun _ _ _ i => 11 + i
  let pk := o.derivePk (enc 5)
  let sg := o.sign (Bytes.append32 (enc 5) pk) [1, 2]
  IO.println s!"strict {o.verifyStrict pk [1, 2] sg} {o.verifyStrict pk [1, 3] sg}"
  let k := EdCurve.wide (sha ((enc 1).1 ++ (pk.1 ++ [1, 2])))
  let sr := Bytes.append32 (enc 1) (enc (k * EdCurve.clamp (Codec.leVal ((sha (enc 5).1).1.take 32)) % edL))
  IO.println s!"strictR {o.verifyStrict pk [1, 2] sr}"
  let bad := (List.range 40).filter fun n => (Ext.decompress (enc n) : Option (Ext Limb)).isNone
  let sb := Bytes.append32 (mulBase 9 : Ext Limb).compress (enc 9)
  IO.println s!"unreadable {bad.head?.map fun n => o.verifyBatch [[1, 2]] [sb] [enc n]}"
  IO.println s!"batch {o.verifyBatch [[1, 2], [1, 2]] [sg, sg] [pk, pk]} {o.verifyBatch [[1, 2]] [sg] [enc 2]} {o.verifyBatch [[1, 2], [1, 3]] [sg, sg] [pk, pk]}"
'''
KEYS = 'naf radix invert points eq mulBase doubleBase straus pippenger decompress small strict strictR batch lastBucket unreadable'.split()
def run(i):
    s = open('/verif/lean/Verif/Model/EdProj.lean').read()
    for e in m[i]['edits'] if i else []:
        assert e['file'] == 'Model/EdProj.lean' and s.count(e['old']) == 1, i
        s = s.replace(e['old'], e['new'])
    s += open('/verif/lean/Verif/Model/EdLimb.lean').read().replace('import Verif.Model.EdProj', '')
    open('/tmp/mutcoord.lean', 'w').write(s + EV)
    r = subprocess.run(['lake', 'env', 'lean', '/tmp/mutcoord.lean'], cwd='/verif/lean', capture_output=True, text=True, timeout=1500)
    return [l for l in r.stdout.split('\n') if l.split(' ')[0] in KEYS], r.stdout
if __name__ == '__main__':
    base, t = run(None)
    print('\n'.join(l[:200] for l in base), flush=True)
    assert len(base) == 69, (len(base), t[:2000])
    res = {}
    for k in [int(a[1:]) for a in sys.argv[1:]] or range(411, 433):
        l, t = run(f'M{k}')
        d = sorted({a.split()[0] for a, b in zip(base, l) if a != b}) if len(l) == len(base) else ['OUTPUT: ' + t[:300]]
        res[f'M{k}'] = d
        print(f'M{k}', d, flush=True)
    json.dump(res, open('/tmp/mutcoord.json', 'w'))
