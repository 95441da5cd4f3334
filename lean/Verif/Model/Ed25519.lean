import Verif.Model.Dalek
import Verif.Lemmas.Edwards

/-!
# Ed25519: the curve behind `ed25519_dalek`

Group, base point and point compression of `curve25519_dalek` 3 (the version used by `ed25519-dalek = "1.0.1"` of
/repo/Cargo.toml).  The group law is that of the Weierstrass form; compression works on Edwards coordinates.
-/

namespace Verif

open WeierstrassCurve

theorem edBase_on_curve : edW.Nonsingular ((edGx : ℕ) : EdF) ((edGy : ℕ) : EdF) :=
  onCurve_sound (F := EdF) (n := edP) (by decide +kernel) (ZMod.natCast_self edP) (by decide +kernel)

/-- `ED25519_BASEPOINT_POINT` -/
def edBase : edW.Point := .some _ _ edBase_on_curve

/-- `EdwardsPoint::compress`: 255 bits of `y`, then the lowest bit of `x`. -/
def edCompress (P : edW.Point) : Bytes 32 :=
  ⟨Codec.leBytes 32 ((toEd P).2.val + 2 ^ 255 * ((toEd P).1.val % 2)), Codec.length_leBytes _ _⟩

theorem EdEq.neg {x y : EdF} (h : EdEq x y) : EdEq (-x) y := by simpa [EdEq] using h

open Classical in
/-- The point with the given `y`, from the `x` with lowest bit 0, negated if `s` is set. -/
noncomputable def edPoint (y : EdF) (s : ℕ) : Option edW.Point :=
  if h : ∃ x : EdF, EdEq x y ∧ x.val % 2 = 0 then
    some (edEquiv.symm (if s = 0 then ⟨(h.choose, y), h.choose_spec.1⟩ else ⟨(-h.choose, y), h.choose_spec.1.neg⟩))
  else none

/-- `CompressedEdwardsY::decompress`: `y` is read modulo `p` (values from `p` on are not refused), the `x` with lowest bit 0 is
taken if there is any, and negated if the top bit is set.  For `x = 0` the top bit makes no difference. -/
noncomputable def edDecompress (b : Bytes 32) : Option edW.Point :=
  edPoint ((Codec.leVal b.1 % 2 ^ 255 : ℕ) : EdF) (Codec.leVal b.1 / 2 ^ 255)

/-- Ed25519 with the hash function `sha`. -/
noncomputable def ed25519 (sha : List UInt8 → Bytes 64) : EdCurve edW.Point := ⟨edBase, edCompress, edDecompress, sha⟩

end Verif
