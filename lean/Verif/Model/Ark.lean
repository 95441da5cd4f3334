import Verif.Lemmas.Bls
import Verif.Model.Laws

/-!
# BLS12-381 as in `ark-bls12-381` 0.2

The groups the crate is used with (/repo/Cargo.toml:8-12, the tests in /repo/src), and the wire format of `ark-ec`/`ark-ff` 0.2
for their points (compressed) and for scalars.  The source of these crates is not in /repo; the definitions follow their
published source.  `Verif/Props/Bls.lean` proves the laws that the other theorems assume of the dependencies.
-/

namespace Verif

open WeierstrassCurve

/-- Wire format of a base field: `serialize_with_flags`, `deserialize_with_flags` (with two flag bits) and the order `<`. -/
structure FieldWire (F : Type) where
  enc : F → ℕ → List UInt8
  dec : List UInt8 → Res SerError (F × ℕ × List UInt8)
  lt : F → F → Prop

/-- `Fq`: 48 little-endian bytes; the flags are the two most significant bits. The flag value 3 is refused
(`SWFlags::from_u8`), so are values that are not reduced. -/
def wireFq : FieldWire BlsFq where
  enc x fl := Codec.leBytes 48 (x.val + 2 ^ 382 * fl)
  dec l :=
    if l.length < 48 then .err .ioError
    else
      let v := Codec.leVal (l.take 48)
      if v / 2 ^ 382 = 3 then .err .invalidData
      else if v % 2 ^ 382 < blsP then .ok ((v % 2 ^ 382 : ℕ), v / 2 ^ 382, l.drop 48)
      else .err .invalidData
  lt x y := x.val < y.val

/-- `Fq2`: `c0` without flags, then `c1` with the flags; compared by `c1`, then by `c0`. -/
def wireFq2 : FieldWire BlsFq2 where
  enc x fl := Codec.leBytes 48 x.re.val ++ wireFq.enc x.im fl
  dec l :=
    if l.length < 48 then .err .ioError
    else if Codec.leVal (l.take 48) < blsP then do
      let (y, fl, rest) ← wireFq.dec (l.drop 48)
      .ok (⟨(Codec.leVal (l.take 48) : ℕ), y⟩, fl, rest)
    else .err .invalidData
  lt x y := x.im.val < y.im.val ∨ x.im = y.im ∧ x.re.val < y.re.val

open Classical in
/-- `GroupAffine::serialize` and `GroupAffine::deserialize`: `x` and the sign of `y`, or the flag for infinity; on reading the
point is completed (`get_point_from_x`) and its order is tested.  (The test `Nonsingular` always succeeds on the curves used.) -/
noncomputable def pointCodec {F : Type} [Field F] [DecidableEq F] (w : FieldWire F) (r : ℕ) (a b : F) :
    Codec (torsion r (swCurve a b).Point) where
  enc P := match P.1 with
    | .zero => w.enc 0 1
    | .some x y _ => w.enc x (if w.lt (-y) y then 2 else 0)
  dec l := do
    let (x, fl, rest) ← w.dec l
    if fl = 1 then .ok (0, rest)
    else if hs : ∃ y, y ^ 2 = x ^ 3 + a * x + b then
      let y := if Xor (w.lt hs.choose (-hs.choose)) (fl = 2) then hs.choose else -hs.choose
      if h : ∃ hn : (swCurve a b).Nonsingular x y, r • Affine.Point.some x y hn = 0 then .ok (⟨.some x y h.1, h.2⟩, rest)
      else .err .invalidData
    else .err .invalidData

/-- `G1Affine`. -/
noncomputable def arkG1 : Curve BlsG1 := ⟨blsG1, pointCodec wireFq blsR 0 4⟩

/-- `G2Affine`. -/
noncomputable def arkG2 : Curve BlsG2 := ⟨blsG2, pointCodec wireFq2 blsR 0 blsB2⟩

/-- `Fr`: 32 little-endian bytes, reduced. -/
def arkFr : Codec (ZMod blsR) where
  enc x := Codec.leBytes 32 x.val
  dec l :=
    if l.length < 32 then .err .ioError
    else if Codec.leVal (l.take 32) < blsR then .ok ((Codec.leVal (l.take 32) : ZMod blsR), l.drop 32)
    else .err .invalidData

/-- `Fr::from_random_bytes`: the most significant bit of the 32 bytes is cleared; the rest must be reduced. -/
def arkFromRandom (l : List UInt8) : Option (ZMod blsR) :=
  if Codec.leVal l % 2 ^ 255 < blsR then some (Codec.leVal l % 2 ^ 255 : ℕ) else none

/-- The hash environment, given the output of BLAKE2s and ChaCha. -/
def arkHash (stream : List UInt8 → List UInt8 → ℕ → UInt8) : HashEnv blsR := ⟨stream, 32, arkFromRandom⟩

/-- All external operations, given pairing, hash functions and EdDSA. -/
noncomputable def arkSuite {K : Type} (pair : BlsG1 → BlsG2 → K) (stream : List UInt8 → List UInt8 → ℕ → UInt8)
    (shake : List UInt8 → Bytes 32) (ed : EdOps) : Suite blsR BlsG1 BlsG2 K :=
  ⟨arkG1, arkG2, arkFr, arkHash stream, pair, shake, ed⟩

end Verif
