import Verif.Model.Ark
import Mathlib.Data.Nat.Log

/-!
# Coordinates of points as in `ark-ec` 0.2

The model of the crate computes in groups.  The crate computes with `GroupAffine` and `GroupProjective` of `ark-ec` 0.2
(`models/short_weierstrass_jacobian.rs`; the source is not in /repo, the definitions follow the published one): three Jacobian
coordinates, and conversions between the two representations in almost every line (`into_affine`, for example
/repo/src/modified_scrape/poly.rs:52, /repo/src/modified_scrape/node.rs:85-115, /repo/src/modified_scrape/decryption.rs:21).
The functions below are those that the crate calls.  Both curves of BLS12-381 have `COEFF_A = 0`; the branch of
`double_in_place` for other coefficients is left out.
-/

namespace Verif

/-- `GroupAffine { x, y, infinity }`, compared by its fields (`derive(PartialEq)`). -/
structure AffPoint (F : Type) where
  x : F
  y : F
  infinity : Bool
deriving DecidableEq

/-- `GroupProjective { x, y, z }`: Jacobian coordinates. -/
structure JacPoint (F : Type) where
  x : F
  y : F
  z : F

variable {F : Type} [Field F] [DecidableEq F]

/-- `GroupProjective::zero`. -/
def JacPoint.zero : JacPoint F := ⟨1, 1, 0⟩

/-- `GroupProjective::is_zero`, called in /repo/src/nizk/utils/hash.rs:31, /repo/src/signature/schnorr/mod.rs:190. -/
def JacPoint.isZero (P : JacPoint F) : Bool := P.z = 0

/-- `GroupProjective::double_in_place` for curves with `COEFF_A = 0`. -/
def JacPoint.double (P : JacPoint F) : JacPoint F :=
  if P.isZero then P
  else
    let a := P.x * P.x
    let b := P.y * P.y
    let c := b * b
    let d := 2 * ((P.x + b) * (P.x + b) - a - c)
    let e := a + 2 * a
    let f := e * e
    let x := f - d - d
    ⟨x, (d - x) * e - 2 * (2 * (2 * c)), 2 * (P.z * P.y)⟩

/-- `GroupProjective::add_assign_mixed`, called in /repo/src/modified_scrape/poly.rs:52 and by `GroupAffine::mul`. -/
def JacPoint.addMixed (P : JacPoint F) (A : AffPoint F) : JacPoint F :=
  if A.infinity then P
  else if P.isZero then ⟨A.x, A.y, 1⟩
  else
    let z1z1 := P.z * P.z
    let u2 := A.x * z1z1
    let s2 := (A.y * P.z) * z1z1
    if P.x = u2 ∧ P.y = s2 then P.double
    else
      let h := u2 - P.x
      let hh := h * h
      let i := 2 * (2 * hh)
      let j := h * i
      let r := 2 * (s2 - P.y)
      let v := P.x * i
      let x := r * r - j - 2 * v
      ⟨x, r * (v - x) - 2 * (j * P.y), (P.z + h) * (P.z + h) - z1z1 - hh⟩

/-- `GroupProjective::add_assign`: `+` and `+=` on projective points. -/
def JacPoint.add (P Q : JacPoint F) : JacPoint F :=
  if P.isZero then Q
  else if Q.isZero then P
  else
    let z1z1 := P.z * P.z
    let z2z2 := Q.z * Q.z
    let u1 := P.x * z2z2
    let u2 := Q.x * z1z1
    let s1 := P.y * Q.z * z2z2
    let s2 := Q.y * P.z * z1z1
    if u1 = u2 ∧ s1 = s2 then P.double
    else
      let h := u2 - u1
      let i := (2 * h) * (2 * h)
      let j := h * i
      let r := 2 * (s2 - s1)
      let v := u1 * i
      let x := r * r - j - 2 * v
      ⟨x, r * (v - x) - 2 * (s1 * j), ((P.z + Q.z) * (P.z + Q.z) - z1z1 - z2z2) * h⟩

/-- `Neg for GroupProjective`. -/
def JacPoint.neg (P : JacPoint F) : JacPoint F := if P.isZero then P else ⟨P.x, -P.y, P.z⟩

/-- `SubAssign for GroupProjective`. -/
def JacPoint.sub (P Q : JacPoint F) : JacPoint F := P.add Q.neg

/-- `PartialEq for GroupProjective`. -/
def JacPoint.eq (P Q : JacPoint F) : Bool :=
  if P.isZero then Q.isZero
  else if Q.isZero then false
  else P.x * (Q.z * Q.z) = Q.x * (P.z * P.z) ∧ P.y * (Q.z * Q.z * Q.z) = Q.y * (P.z * P.z * P.z)

/-- `GroupAffine::zero`, also what is read for the flag of infinity. -/
def AffPoint.zero : AffPoint F := ⟨0, 1, true⟩

/-- `Neg for GroupAffine`. -/
def AffPoint.neg (A : AffPoint F) : AffPoint F := if A.infinity then A else ⟨A.x, -A.y, false⟩

/-- `GroupAffine::into_projective`. -/
def AffPoint.intoProjective (A : AffPoint F) : JacPoint F := if A.infinity then .zero else ⟨A.x, A.y, 1⟩

/-- `GroupProjective::into_affine`. -/
def JacPoint.intoAffine (P : JacPoint F) : AffPoint F :=
  if P.isZero then .zero
  else if P.z = 1 then ⟨P.x, P.y, false⟩
  else
    let zinv := P.z⁻¹
    let zz := zinv * zinv
    ⟨P.x * zz, P.y * (zz * zinv), false⟩

/-- `into_repr`: the number as `k` limbs of 64 bits, least significant first. -/
def limbs (k n : ℕ) : List ℕ := (List.range k).map fun i => n / 2 ^ (64 * i) % 2 ^ 64

/-- `BitIteratorBE::new`: all bits of the limbs, most significant first. -/
def bitsBE (l : List ℕ) : List Bool :=
  (List.range (64 * l.length)).reverse.map fun i => l.getD (i / 64) 0 / 2 ^ (i % 64) % 2 = 1

/-- `GroupAffine::mul_bits` (and with it `mul`). -/
def AffPoint.mulBits (A : AffPoint F) (bits : List Bool) : JacPoint F :=
  bits.foldl (fun res b => if b then res.double.addMixed A else res.double) .zero

/-- `ProjectiveCurve::mul`; the leading zeros are skipped. -/
def JacPoint.mulBits (P : JacPoint F) (bits : List Bool) : JacPoint F :=
  (bits.dropWhile (!·)).foldl (fun res b => if b then res.double.add P else res.double) .zero

/-! ### many points at once (/repo/src/signature/schnorr/mod.rs:186-187) -/

/-- First pass of `batch_inversion`: the products of the first elements (`tmp` and `prod`). -/
def runningProducts (l : List F) : F × List F := l.foldl (fun (tmp, prod) f => (tmp * f, prod ++ [tmp * f])) (1, [])

/-- Second pass of `batch_inversion`: the inverses of the elements, from the last to the first. -/
def backwardPass (tmp : F) (l : List (F × F)) : List F :=
  (l.foldl (fun (tmp, out) (f, s) => (tmp * f, out ++ [tmp * s])) (tmp, ([] : List F))).2

/-- Writing the results back to the elements that are not zero, in order. -/
def writeBack : List F → List F → List F
  | [], _ => []
  | a :: l, [] => a :: l
  | a :: l, i :: is => if a = 0 then a :: writeBack l (i :: is) else i :: writeBack l is

/-- `ark_ff::batch_inversion`: one inversion for all elements; zeros stay. -/
def batchInversion (l : List F) : List F :=
  let nz := l.filter (· ≠ 0)
  let (tmp, prod) := runningProducts nz
  writeBack l (backwardPass tmp⁻¹ (nz.reverse.zip (prod.reverse.drop 1 ++ [1]))).reverse

/-- `ProjectiveCurve::batch_normalization_into_affine`. -/
def batchNormalization (l : List (JacPoint F)) : List (AffPoint F) :=
  (l.zip (batchInversion (l.map (·.z)))).map fun (g, z) =>
    if g.isZero ∨ g.z = 1 then g.intoAffine
    else
      let z2 := z * z
      (⟨g.x * z2, g.y * (z2 * z), 1⟩ : JacPoint F).intoAffine

/-- One round of the loop over scalars and bases for one window of `VariableBaseMSM::multi_scalar_mul`: bits `w .. w + c` of
the scalar, and ones only in the first window. -/
def bucketStep (c w : ℕ) (acc : JacPoint F × List (JacPoint F)) (p : ℕ × AffPoint F) : JacPoint F × List (JacPoint F) :=
  if p.1 = 1 then
    if w = 0 then (acc.1.addMixed p.2, acc.2) else acc
  else
    let d := p.1 / 2 ^ w % 2 ^ 64 % 2 ^ c
    if d ≠ 0 then (acc.1, acc.2.modify (d - 1) (·.addMixed p.2)) else acc

/-- The loop over scalars and bases for one window: `2^c - 1` buckets. -/
def windowBuckets (c w : ℕ) (pairs : List (ℕ × AffPoint F)) : JacPoint F × List (JacPoint F) :=
  pairs.foldl (bucketStep c w) (.zero, List.replicate (2 ^ c - 1) .zero)

/-- The sum for one window: buckets from the last to the first with a running sum. -/
def windowSum (c w : ℕ) (pairs : List (ℕ × AffPoint F)) : JacPoint F :=
  let (res, buckets) := windowBuckets c w pairs
  ((batchNormalization buckets).reverse.foldl (fun (running, res) b =>
    let running := running.addMixed b
    (running, res.add running)) (.zero, res)).2

/-- The width of the windows: 3 for fewer than 32 bases, otherwise `ln_without_floats` (69/100 of the rounded up binary
logarithm) plus 2. -/
def windowBits (size : ℕ) : ℕ := if size < 32 then 3 else Nat.clog 2 size * 69 / 100 + 2

/-- `VariableBaseMSM::multi_scalar_mul` for scalars of `bits` bits (`MODULUS_BITS`); the first window is unwrapped. -/
def multiScalarMul {ε : Type} (bits : ℕ) (bases : List (AffPoint F)) (scalars : List ℕ) : Res ε (JacPoint F) :=
  let c := windowBits (min bases.length scalars.length)
  let pairs := (scalars.zip bases).filter fun (s, _) => s ≠ 0
  match ((List.range ((bits + c - 1) / c)).map (c * ·)).map fun w => windowSum c w pairs with
  | [] => .panic
  | lowest :: sums =>
    .ok (lowest.add (sums.reverse.foldl (fun total s => (List.range c).foldl (fun t _ => t.double) (total.add s)) .zero))

/-! ### the quadratic extension (`QuadExtField`, non-residue `-1`) -/

/-- `MulAssign for QuadExtField`: Karatsuba's method. -/
def fq2Mul (a b : BlsFq2) : BlsFq2 :=
  let v0 := a.re * b.re
  let v1 := a.im * b.im
  ⟨v0 + -v1, (a.im + a.re) * (b.re + b.im) - v0 - v1⟩

/-- `QuadExtField::square_in_place`. -/
def fq2Square (a : BlsFq2) : BlsFq2 :=
  let v0 := a.re - a.im
  let v3 := a.re - -a.im
  let v2 := a.re * a.im
  let v0 := v0 * v3 + v2
  ⟨v0 + -v2, 2 * v2⟩

/-- `QuadExtField::inverse`. -/
def fq2Inv (a : BlsFq2) : Option BlsFq2 :=
  if a.re = 0 ∧ a.im = 0 then none
  else
    let v1 := a.im * a.im
    let v0 := a.re * a.re - -v1
    let v1 := v0⁻¹
    some ⟨a.re * v1, -(a.im * v1)⟩

end Verif
