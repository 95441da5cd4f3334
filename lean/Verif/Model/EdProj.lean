import Verif.Model.Ed25519
import Verif.Lemmas.EdAdd

/-!
# Coordinates of points as in `curve25519-dalek` 3

The model of the EdDSA wrapper (`Model/Dalek.lean`, `Model/Ed25519.lean`) computes in the group of Ed25519.  The crate behind
`ed25519-dalek = "1.0.1"` of /repo/Cargo.toml computes with four kinds of coordinates (`backend/serial/curve_models`), signed digits
of scalars (`scalar.rs`), tables of multiples (`window.rs`) and the loops in `backend/serial/scalar_mul` (the source is not in /repo,
the definitions follow the published one).  The functions below are those behind the calls of /repo/src/lib.rs:255 (keys), :271
(signing), :285-289 (single verification) and :291-306 (batch verification).

Simplifications: bit buffers are written with division and remainder; constant-time selection is selection; tables are functions of the
index (that no index is out of range is part of C130).  The definitions are over any type `F` with the operations of field elements:
`EdF`, the integers modulo `2^255 - 19` (C130), and limbs (`Model/EdLimb.lean`, C131).
-/

namespace Verif.EdProj

/-- What `FieldElement` has besides the operators, with the constants of `constants.rs`. -/
class FE (F : Type) where
  /-- `square` -/
  sq : F → F
  /-- `square2`: twice the square -/
  sq2 : F → F
  /-- `pow2k`: repeated squaring -/
  pow2k : ℕ → F → F
  /-- `from_bytes`, which ignores the highest bit -/
  ofNat : ℕ → F
  /-- `to_bytes` -/
  toNat : F → ℕ
  /-- `EDWARDS_D`, `EDWARDS_D2`, `SQRT_M1` -/
  d : F
  d2 : F
  sqrtM1 : F
  /-- coordinates `X`, `Y`, `T` of `ED25519_BASEPOINT_POINT` -/
  baseX : F
  baseY : F
  baseT : F

/-- Field elements as integers modulo `2^255 - 19`. -/
instance : FE EdF where
  sq x := x * x
  sq2 x := 2 * (x * x)
  pow2k k x := x ^ 2 ^ k
  ofNat n := ((n % 2 ^ 255 : ℕ) : EdF)
  toNat x := x.val
  d := edD
  d2 := 2 * edD
  sqrtM1 := (edI : ℕ)
  baseX := (0x216936d3cd6e53fec0a4e231fdd6dc5c692cc7609525a7b2c9562d608f25d51a : ℕ)
  baseY := (0x6666666666666666666666666666666666666666666666666666666666666658 : ℕ)
  baseT := (0x67875f0fd78b766566ea4e8e64abe37d20f09f80775152f56dde8ab3a5b7dda3 : ℕ)

/-- `EdwardsPoint`: extended coordinates. -/
structure Ext (F : Type) where
  x : F
  y : F
  z : F
  t : F

/-- `ProjectivePoint`. -/
structure Proj (F : Type) where
  x : F
  y : F
  z : F

/-- `CompletedPoint`: the point `(x/z, y/t)`. -/
structure Compl (F : Type) where
  x : F
  y : F
  z : F
  t : F

/-- `ProjectiveNielsPoint`. -/
structure Niels (F : Type) where
  yPlusX : F
  yMinusX : F
  z : F
  t2d : F

/-- `AffineNielsPoint`. -/
structure ANiels (F : Type) where
  yPlusX : F
  yMinusX : F
  xy2d : F

variable {F : Type} [Add F] [Sub F] [Neg F] [Mul F] [Zero F] [One F] [FE F]

open FE (sq sq2 pow2k ofNat toNat)

/-- `FieldElement::pow22501`: the powers `2^250 - 1` and 11, by the chain of squarings and products in field.rs. -/
def pow22501 (x : F) : F × F :=
  let t0 := sq x
  let t1 := sq (sq t0)
  let t2 := x * t1
  let t3 := t0 * t2
  let t4 := sq t3
  let t5 := t2 * t4
  let t6 := pow2k 5 t5
  let t7 := t6 * t5
  let t8 := pow2k 10 t7
  let t9 := t8 * t7
  let t10 := pow2k 20 t9
  let t11 := t10 * t9
  let t12 := pow2k 10 t11
  let t13 := t12 * t7
  let t14 := pow2k 50 t13
  let t15 := t14 * t13
  let t16 := pow2k 100 t15
  let t17 := t16 * t15
  let t18 := pow2k 50 t17
  (t18 * t13, t3)

/-- `FieldElement::invert`. -/
def invert (x : F) : F := pow2k 5 (pow22501 x).1 * (pow22501 x).2

/-- `FieldElement::pow_p58`. -/
def powP58 (x : F) : F := x * pow2k 2 (pow22501 x).1

/-- `FieldElement::is_negative`: the lowest bit. -/
def isNegative (x : F) : Bool := toNat x % 2 = 1

/-- `FieldElement::ct_eq`: the bytes are compared. -/
def feEq (x y : F) : Bool := toNat x = toNat y

/-- `FieldElement::sqrt_ratio_i`: whether `u/v` is a square, and the non-negative root. -/
def sqrtRatio (u v : F) : Bool × F :=
  let v3 := sq v * v
  let v7 := sq v3 * v
  let r := u * v3 * powP58 (u * v7)
  let check := v * sq r
  let correct := feEq check u
  let flipped := feEq check (-u)
  let flippedI := feEq check (-u * FE.sqrtM1)
  let r := if flipped || flippedI then FE.sqrtM1 * r else r
  (correct || flipped, if isNegative r then -r else r)

namespace Proj

/-- `ProjectivePoint::identity`. -/
def id : Proj F := ⟨0, 1, 1⟩

/-- `ProjectivePoint::double`. -/
def double (p : Proj F) : Compl F :=
  let xx := sq p.x
  let yy := sq p.y
  let zz2 := sq2 p.z
  let s := sq (p.x + p.y)
  ⟨s - (yy + xx), yy + xx, yy - xx, zz2 - (yy - xx)⟩

/-- `ProjectivePoint::to_extended`. -/
def toExt (p : Proj F) : Ext F := ⟨p.x * p.z, p.y * p.z, sq p.z, p.x * p.y⟩

end Proj

namespace Compl

/-- `CompletedPoint::to_projective`. -/
def toProj (c : Compl F) : Proj F := ⟨c.x * c.t, c.y * c.z, c.z * c.t⟩

/-- `CompletedPoint::to_extended`. -/
def toExt (c : Compl F) : Ext F := ⟨c.x * c.t, c.y * c.z, c.z * c.t, c.x * c.y⟩

end Compl

namespace Niels

/-- `ProjectiveNielsPoint::identity`. -/
def id : Niels F := ⟨1, 1, 1, 0⟩

/-- `-&ProjectiveNielsPoint`. -/
def neg (n : Niels F) : Niels F := ⟨n.yMinusX, n.yPlusX, n.z, -n.t2d⟩

end Niels

namespace ANiels

/-- `AffineNielsPoint::identity`. -/
def id : ANiels F := ⟨1, 1, 0⟩

/-- `-&AffineNielsPoint`. -/
def neg (n : ANiels F) : ANiels F := ⟨n.yMinusX, n.yPlusX, -n.xy2d⟩

end ANiels

namespace Ext

/-- `EdwardsPoint::identity`. -/
def id : Ext F := ⟨0, 1, 1, 0⟩

/-- `ED25519_BASEPOINT_POINT`. -/
def base : Ext F := ⟨FE.baseX, FE.baseY, 1, FE.baseT⟩

/-- `&EdwardsPoint + &ProjectiveNielsPoint`. -/
def addN (e : Ext F) (n : Niels F) : Compl F :=
  let pp := (e.y + e.x) * n.yPlusX
  let mm := (e.y - e.x) * n.yMinusX
  let tt := e.t * n.t2d
  let zz := e.z * n.z
  ⟨pp - mm, pp + mm, (zz + zz) + tt, (zz + zz) - tt⟩

/-- `&EdwardsPoint - &ProjectiveNielsPoint`. -/
def subN (e : Ext F) (n : Niels F) : Compl F :=
  let pm := (e.y + e.x) * n.yMinusX
  let mp := (e.y - e.x) * n.yPlusX
  let tt := e.t * n.t2d
  let zz := e.z * n.z
  ⟨pm - mp, pm + mp, (zz + zz) - tt, (zz + zz) + tt⟩

/-- `&EdwardsPoint + &AffineNielsPoint`. -/
def addA (e : Ext F) (n : ANiels F) : Compl F :=
  let pp := (e.y + e.x) * n.yPlusX
  let mm := (e.y - e.x) * n.yMinusX
  let tt := e.t * n.xy2d
  ⟨pp - mm, pp + mm, (e.z + e.z) + tt, (e.z + e.z) - tt⟩

/-- `&EdwardsPoint - &AffineNielsPoint`. -/
def subA (e : Ext F) (n : ANiels F) : Compl F :=
  let pm := (e.y + e.x) * n.yMinusX
  let mp := (e.y - e.x) * n.yPlusX
  let tt := e.t * n.xy2d
  ⟨pm - mp, pm + mp, (e.z + e.z) - tt, (e.z + e.z) + tt⟩

/-- `EdwardsPoint::to_projective_niels`. -/
def toNiels (e : Ext F) : Niels F := ⟨e.y + e.x, e.y - e.x, e.z, e.t * FE.d2⟩

/-- `EdwardsPoint::to_affine_niels`. -/
def toANiels (e : Ext F) : ANiels F :=
  let x := e.x * invert e.z
  let y := e.y * invert e.z
  ⟨y + x, y - x, (x * y) * FE.d2⟩

/-- `EdwardsPoint::to_projective`. -/
def toProj (e : Ext F) : Proj F := ⟨e.x, e.y, e.z⟩

/-- `EdwardsPoint::double`. -/
def double (e : Ext F) : Ext F := e.toProj.double.toExt

/-- `&EdwardsPoint + &EdwardsPoint`. -/
def add (e f : Ext F) : Ext F := (e.addN f.toNiels).toExt

/-- `-&EdwardsPoint`. -/
def neg (e : Ext F) : Ext F := ⟨-e.x, e.y, e.z, -e.t⟩

/-- `EdwardsPoint::mul_by_pow_2` (`k > 0`). -/
def mulByPow2 (k : ℕ) (e : Ext F) : Ext F := ((fun s => s.double.toProj)^[k - 1] e.toProj).double.toExt

/-- `EdwardsPoint::ct_eq`, and with it `==`. -/
def eq (e f : Ext F) : Bool := feEq (e.x * f.z) (f.x * e.z) && feEq (e.y * f.z) (f.y * e.z)

/-- `is_identity`. -/
def isId (e : Ext F) : Bool := e.eq id

/-- `is_small_order`. -/
def isSmallOrder (e : Ext F) : Bool := (e.mulByPow2 3).isId

/-- `EdwardsPoint::compress`: the bytes of `y`, the lowest bit of `x` in the unused top bit. -/
def compress (e : Ext F) : Bytes 32 :=
  let x := e.x * invert e.z
  let y := e.y * invert e.z
  ⟨Codec.leBytes 32 (toNat y + 2 ^ 255 * if isNegative x then 1 else 0), Codec.length_leBytes _ _⟩

/-- `CompressedEdwardsY::decompress`. -/
def decompress (b : Bytes 32) : Option (Ext F) :=
  let y : F := ofNat (Codec.leVal b.1)
  let yy := sq y
  let s := sqrtRatio (yy - 1) (yy * FE.d + 1)
  if s.1 then
    let x := if Codec.leVal b.1 / 2 ^ 255 = 1 then -s.2 else s.2
    some ⟨x, y, 1, x * y⟩
  else none

end Ext

/-! ## Signed digits -/

/-- The loop of `Scalar::non_adjacent_form` from position `pos` on; the first argument bounds the number of rounds. -/
def nafFrom (w x : ℕ) : ℕ → ℕ → ℕ → List ℤ
  | 0, _, _ => []
  | k + 1, pos, carry =>
    if 256 ≤ pos then []
    else
      let window := carry + x / 2 ^ pos % 2 ^ w
      if window % 2 = 0 then 0 :: nafFrom w x k (pos + 1) carry
      else if window < 2 ^ w / 2 then
        (window : ℤ) :: (List.replicate (min (w - 1) (255 - pos)) 0 ++ nafFrom w x k (pos + w) 0)
      else
        ((window : ℤ) - 2 ^ w) :: (List.replicate (min (w - 1) (255 - pos)) 0 ++ nafFrom w x k (pos + w) 1)

/-- `Scalar::non_adjacent_form`: 256 digits, least significant first. -/
def naf (w x : ℕ) : List ℤ := nafFrom w x 256 0 0

/-- The loop of `Scalar::to_radix_16` that moves the digits into `-8 .. 8`; the last digit only receives its carry. -/
def recenter : ℤ → List ℤ → List ℤ
  | _, [] => []
  | c, [a] => [a + c]
  | c, a :: b :: l => (a + c - 16 * ((a + c + 8) / 16)) :: recenter ((a + c + 8) / 16) (b :: l)

/-- `Scalar::to_radix_16`: 64 digits. -/
def radix16 (x : ℕ) : List ℤ := recenter 0 ((List.range 64).map fun i => ((x / 16 ^ i % 16 : ℕ) : ℤ))

/-- The loop of `Scalar::to_radix_2w` over `k` digits from digit `i` on, with the last carry. -/
def radixLoop (w x : ℕ) : ℕ → ℕ → ℕ → List ℤ × ℕ
  | 0, _, carry => ([], carry)
  | k + 1, i, carry =>
    let coef := carry + x / 2 ^ (i * w) % 2 ^ w
    let carry := (coef + 2 ^ w / 2) / 2 ^ w
    let rest := radixLoop w x k (i + 1) carry
    (((coef : ℤ) - 2 ^ w * carry) :: rest.1, rest.2)

/-- Add to the last entry. -/
def addLast (c : ℤ) : List ℤ → List ℤ
  | [] => []
  | [a] => [a + c]
  | a :: b :: l => a :: addLast c (b :: l)

/-- `Scalar::to_radix_2w` for `w` from 6 to 8: for 8 the last carry is a digit of its own. -/
def radix2w (w x : ℕ) : List ℤ :=
  let p := radixLoop w x ((256 + w - 1) / w) 0 0
  if w = 8 then p.1 ++ [(p.2 : ℤ)] else addLast (2 ^ w * p.2) p.1

/-! ## Tables -/

/-- `NafLookupTable5::from` / `NafLookupTable8::from` in projective form: entry `i` is the multiple `2 i + 1`. -/
def oddTable (e : Ext F) : ℕ → Niels F
  | 0 => e.toNiels
  | i + 1 => (e.double.addN (oddTable e i)).toExt.toNiels

/-- `AFFINE_ODD_MULTIPLES_OF_BASEPOINT`, as `NafLookupTable8::from` makes it. -/
def oddTableA (e : Ext F) : ℕ → ANiels F
  | 0 => e.toANiels
  | i + 1 => (e.double.addA (oddTableA e i)).toExt.toANiels

/-- `LookupTable::from` in affine form: entry `i` is the multiple `i + 1`. -/
def tableA (e : Ext F) : ℕ → ANiels F
  | 0 => e.toANiels
  | i + 1 => (e.addA (tableA e i)).toExt.toANiels

/-- `LookupTable::select`. -/
def selectA (tab : ℕ → ANiels F) (d : ℤ) : ANiels F :=
  let n := if d = 0 then ANiels.id else tab (d.natAbs - 1)
  if d < 0 then n.neg else n

/-- The points of `EdwardsBasepointTable::create`: `256^i` times the base point. -/
def baseRow : ℕ → Ext F
  | 0 => Ext.base
  | i + 1 => (baseRow i).mulByPow2 8

/-! ## Scalar multiplication -/

/-- `EdwardsBasepointTable::basepoint_mul`. -/
def mulBase (x : ℕ) : Ext F :=
  let a := radix16 x
  let step := fun (p : Ext F) i => (p.addA (selectA (tableA (baseRow (i / 2))) (a.getD i 0))).toExt
  let p := ((List.range 64).filter (· % 2 = 1)).foldl step Ext.id
  ((List.range 64).filter (· % 2 = 0)).foldl step (p.mulByPow2 4)

/-- Adding the multiple of a digit in the loops of `vartime_double_base` and `straus`. -/
def addDigit (tab : ℕ → Niels F) (t : Compl F) (d : ℤ) : Compl F :=
  if 0 < d then t.toExt.addN (tab (d.natAbs / 2)) else if d < 0 then t.toExt.subN (tab (d.natAbs / 2)) else t

/-- The same for the affine table of the base point. -/
def addDigitA (tab : ℕ → ANiels F) (t : Compl F) (d : ℤ) : Compl F :=
  if 0 < d then t.toExt.addA (tab (d.natAbs / 2)) else if d < 0 then t.toExt.subA (tab (d.natAbs / 2)) else t

/-- `vartime_double_base::mul`: `a A + b B`. -/
def doubleBase (a : ℕ) (A : Ext F) (b : ℕ) : Ext F :=
  let an := naf 5 a
  let bn := naf 8 b
  let is := (List.range 256).reverse.dropWhile fun i => an.getD i 0 = 0 ∧ bn.getD i 0 = 0
  let is := if is = [] then [0] else is
  (is.foldl (fun (r : Proj F) i =>
    (addDigitA (oddTableA Ext.base) (addDigit (oddTable A) r.double (an.getD i 0)) (bn.getD i 0)).toProj) Proj.id).toExt

/-- `Straus::optional_multiscalar_mul` once all points are there. -/
def straus (l : List (ℕ × Ext F)) : Ext F :=
  ((List.range 256).reverse.foldl (fun (r : Proj F) i =>
    (l.foldl (fun t p => addDigit (oddTable p.2) t ((naf 5 p.1).getD i 0)) r.double).toProj) Proj.id).toExt

/-- One digit of `Pippenger::optional_multiscalar_mul`: all points go to the buckets. -/
def fillBuckets (i n : ℕ) (l : List (List ℤ × Ext F)) : List (Ext F) :=
  l.foldl (fun bs p =>
    let d := p.1.getD i 0
    if 0 < d then bs.modify (d.natAbs - 1) fun e => (e.addN p.2.toNiels).toExt
    else if d < 0 then bs.modify (d.natAbs - 1) fun e => (e.subN p.2.toNiels).toExt
    else bs) (List.replicate n Ext.id)

/-- The sum of the buckets, each as often as its number says; the running sums start with the last bucket. -/
def sumBuckets (bs : List (Ext F)) : Ext F :=
  match bs.reverse with
  | [] => Ext.id
  | b :: bs => (bs.foldl (fun (p : Ext F × Ext F) e => (p.1.add e, p.2.add (p.1.add e))) (b, b)).2

/-- `Pippenger::optional_multiscalar_mul` once all points are there. -/
def pippenger (l : List (ℕ × Ext F)) : Ext F :=
  let w := if l.length < 500 then 6 else if l.length < 800 then 7 else 8
  let l := l.map fun p => (radix2w w p.1, p.2)
  let n := (256 + w - 1) / w + if w = 8 then 1 else 0
  match (List.range n).reverse.map fun i => sumBuckets (fillBuckets i (2 ^ w / 2) l) with
  | [] => Ext.id
  | c :: cs => cs.foldl (fun t p => (t.mulByPow2 w).add p) c

/-- `EdwardsPoint::optional_multiscalar_mul`. -/
def multiscalar (scalars : List ℕ) (points : List (Option (Ext F))) : Option (Ext F) := do
  let ps ← points.mapM _root_.id
  let l := scalars.zip ps
  some (if scalars.length < 190 then straus l else pippenger l)

/-! ## The functions of `ed25519_dalek` -/

variable (F)

open EdCurve in
/-- `PublicKey::verify_strict` after parsing of the key. -/
def strict (sha : List UInt8 → Bytes 64) (pk : Bytes 32) (msg : List UInt8) (sig : Bytes 64) : Bool :=
  if sOf sig < edL then
    match (Ext.decompress (fst32 sig) : Option (Ext F)), (Ext.decompress pk : Option (Ext F)) with
    | some R, some A =>
      if R.isSmallOrder || A.isSmallOrder then false
      else (doubleBase (wide (sha ((fst32 sig).1 ++ (pk.1 ++ msg)))) A.neg (sOf sig)).eq R
    | _, _ => false
  else false

open EdCurve in
/-- `verify_batch` with the weights `z`. -/
def batch (sha : List UInt8 → Bytes 64) (z : ℕ → ℕ) (ms : List (List UInt8)) (ss : List (Bytes 64)) (ks : List (Bytes 32)) : Bool :=
  if ss.length = ms.length ∧ ss.length = ks.length then
    if ss.all fun s => decide (sOf s < edL) then
      let zs := (List.range ss.length).map z
      let hrams := (ms.zip (ss.zip ks)).map fun v => wide (sha ((fst32 v.2.1).1 ++ (v.2.2.1 ++ v.1)))
      let b := ((ss.zip zs).map fun p => p.2 * sOf p.1 % edL).sum % edL
      let zhrams := (hrams.zip zs).map fun p => p.1 * p.2 % edL
      match multiscalar (((edL - b) % edL) :: (zs ++ zhrams))
          (some (Ext.base : Ext F) :: ((ss.map fun s => Ext.decompress (fst32 s)) ++ ks.map Ext.decompress)) with
      | some e => e.isId
      | none => false
    else false
  else false

open EdCurve in
/-- The functions used by lib.rs, computed in coordinates. -/
def ops (sha : List UInt8 → Bytes 64) (zs : List (List UInt8) → List (Bytes 64) → List (Bytes 32) → ℕ → ℕ) : EdOps where
  derivePk seed := (mulBase (clamp (Codec.leVal ((sha seed.1).1.take 32))) : Ext F).compress
  keypairOk b := (Ext.decompress (snd32 b) : Option (Ext F)).isSome
  sign b msg :=
    let seed := (fst32 b).1
    let pk := snd32 b
    let r := wide (sha ((sha seed).1.drop 32 ++ msg))
    let R := (mulBase r : Ext F).compress
    let s := (wide (sha (R.1 ++ (pk.1 ++ msg))) * clamp (Codec.leVal ((sha seed).1.take 32)) + r) % edL
    Bytes.append32 R ⟨Codec.leBytes 32 s, Codec.length_leBytes _ _⟩
  sigOk b := decide (sOf b < 2 ^ 253)
  pkOk pk := (Ext.decompress pk : Option (Ext F)).isSome
  verifyStrict pk msg sig := strict F sha pk msg sig
  verifyBatch ms ss ks := batch F sha (zs ms ss ks) ms ss ks

end Verif.EdProj
