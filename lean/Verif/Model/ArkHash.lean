import Verif.Lemmas.BlsOrder
import Verif.Model.Ark
import Verif.Model.Hash

/-!
# Points of BLS12-381 from random bytes, as in `ark-ec`/`ark-ff` 0.2

What `hash_to_group` (/repo/src/nizk/utils/hash.rs:20-36) calls with `C = G1Affine` or `G2Affine`: `C::from_random_bytes`, then
`mul_by_cofactor_to_projective`.  The source of these crates is not in /repo; the definitions follow their published source.
-/

namespace Verif

open WeierstrassCurve

/-- `Fq::from_random_bytes`: the three most significant of the 384 bits are cleared; the rest must be reduced. -/
def rawFq0 (l : List UInt8) : Option BlsFq :=
  let v := Codec.leVal l
  if v % 2 ^ 381 < blsP then some (v % 2 ^ 381 : ℕ) else none

/-- `Fq::from_random_bytes_with_flags::<SWFlags>`: the flags are the two most significant bits, the third is ignored. -/
def rawFq (l : List UInt8) : Option (BlsFq × ℕ) :=
  let fl := Codec.leVal l / 2 ^ 382
  match rawFq0 l with
  | some x => if fl = 3 then none else some (x, fl)
  | none => none

/-- `Fq2::from_random_bytes_with_flags::<SWFlags>`: one half of the bytes for each coordinate, the flags in the second. -/
def rawFq2 (l : List UInt8) : Option (BlsFq2 × ℕ) :=
  match rawFq0 (l.take (l.length / 2)) with
  | some c0 =>
    match rawFq (l.drop (l.length / 2)) with
    | some (c1, fl) => some (⟨c0, c1⟩, fl)
    | none => none
  | none => none

open Classical in
/-- `GroupAffine::from_random_bytes` (with `get_point_from_x`): no test of the order. (The test `Nonsingular` always succeeds on
the curves used.) -/
noncomputable def pointFromRandom {F : Type} [Field F] [DecidableEq F] (raw : List UInt8 → Option (F × ℕ)) (lt : F → F → Prop)
    (a b : F) (l : List UInt8) : Option (swCurve a b).Point :=
  match raw l with
  | none => none
  | some (x, fl) =>
    if x = 0 ∧ fl = 1 then some 0
    else if fl = 1 then none
    else if hs : ∃ y, y ^ 2 = x ^ 3 + a * x + b then
      let y := if Xor (lt hs.choose (-hs.choose)) (fl = 2) then hs.choose else -hs.choose
      if h : (swCurve a b).Nonsingular x y then some (.some x y h) else none
    else none

/-- `G1Affine` with all its points. -/
noncomputable def arkRaw1 : RawCurve blsE1.Point := ⟨48, pointFromRandom rawFq wireFq.lt 0 4, blsH1⟩

/-- `G2Affine` with all its points. -/
noncomputable def arkRaw2 : RawCurve blsE2.Point := ⟨96, pointFromRandom rawFq2 wireFq2.lt 0 blsB2, blsH2⟩

end Verif
