import Verif.Lemmas.Ecpp
import Mathlib.Algebra.QuadraticAlgebra.Basic
import Mathlib.NumberTheory.LegendreSymbol.Basic

/-!
# The base fields and groups of BLS12-381
-/

namespace Verif

open WeierstrassCurve

/-- Order of the BLS12-381 base field (`Fq` of `ark-bls12-381`, /repo/Cargo.toml:12). -/
def blsP : ℕ := 0x1a0111ea397fe69a4b1ba7b6434bacd764774b84f38512bf6730d2a0f6b0f6241eabfffeb153ffffb9feffffffffaaab

/-- Coordinates of the generator of the first group (`G1Affine::prime_subgroup_generator()`). -/
def blsG1x : ℕ := 0x17f1d3a73197d7942695638c4fa9ac0fc3688c4f9774b905a14e3a3f171bac586c55e83ff97a1aeffb3af00adb22c6bb
def blsG1y : ℕ := 0x08b3f481e3aaa0f1a09e30ed741d8ae4fcf5e095d5d00af600db18cb2c04b3edd03cc744a2888ae40caa232946c5e7e1

/-- **The base field is a field**: Goldwasser and Kilian's criterion with the generator of the first group. -/
theorem blsP_prime : blsP.Prime :=
  prime_of_curve blsR 0 4 blsG1x blsG1y 255 C61_prime (by decide +kernel) (by decide +kernel) (by decide +kernel) (by decide +kernel)

instance factBlsP : Fact blsP.Prime := ⟨blsP_prime⟩

/-- The base field. -/
abbrev BlsFq := ZMod blsP

theorem blsP_mod_four : blsP % 4 = 3 := by decide +kernel

instance factNonsquare : Fact (∀ x : BlsFq, x ^ 2 ≠ -1 + 0 * x) := ⟨fun x h => by
  rw [zero_mul, add_zero] at h
  exact ZMod.mod_four_ne_three_of_sq_eq_neg_one h blsP_mod_four⟩

/-- The quadratic extension by `u² = -1`. -/
abbrev BlsFq2 := QuadraticAlgebra BlsFq (-1) 0

/-- Coordinates `(a, b)` for `a + b u` of the generator of the second group. -/
def blsG2x : ℕ × ℕ :=
  (0x024aa2b2f08f0a91260805272dc51051c6e47ad4fa403b02b4510b647ae3d1770bac0326a805bbefd48056c8c121bdb8,
   0x13e02b6052719f607dacd3a088274f65596bd0d09920b61ab5da61bbdc7f5049334cf11213945d57e5ac7d055d042b7e)
def blsG2y : ℕ × ℕ :=
  (0x0ce5d527727d6e118cc9cdc6da2e351aadfd9baa8cbdd3a76d429a695160d12c923ac9cc3baca289e193548608b82801,
   0x0606c4a02ea734cc32acd2b02bc28b99cb3e287e85a763af267492ab572e99ab3f370d275cec1da1aaa9075ff05f79be)

/-- A point whose order is the largest prime factor of the cofactor. -/
def blsLx : ℕ × ℕ :=
  (0x742c321cfc416938d661ca92e2049e95cbff82f7f224a70ce7f110897519a5d9b04add2c76fff66fbd66bccb00621ac,
   0x3e2e4ca4a68ca97402f2aa09d95197cfc96d6aa1f2b915414c9b44a9440d9a06b6a83f86f01c2e3b1786800eb86c22d)
def blsLy : ℕ × ℕ :=
  (0x7cf38919ab943d5a06d150da63b33d36d4f74f5845a4d4cbc744966e24e1e7a0f510338f484c02b7e3b1a8bbb1a3102,
   0xf3a9c32939b1c049b65f634fdac4efe8ceab9d9a758fc1d53eb78af860513bf0fb9a200edcd0f043cdf355cc142fa01)

/-- Arithmetic in the quadratic extension. -/
def opsP2 : FieldOps (ℕ × ℕ) where
  add a b := ((opsN blsP).add a.1 b.1, (opsN blsP).add a.2 b.2)
  sub a b := ((opsN blsP).sub a.1 b.1, (opsN blsP).sub a.2 b.2)
  mul a b := ((opsN blsP).sub (a.1 * b.1) (a.2 * b.2), (opsN blsP).add (a.1 * b.2) (a.2 * b.1))
  unit a := (opsN blsP).unit a.1 || (opsN blsP).unit a.2
  eq a b := (opsN blsP).eq a.1 b.1 && (opsN blsP).eq a.2 b.2

/-- The element `a + b u`. -/
def toFq2 (a : ℕ × ℕ) : BlsFq2 := ⟨a.1, a.2⟩

theorem opsP2_sound : opsP2.Sound toFq2 := by
  have h := opsN_sound (F := BlsFq) (by decide) (ZMod.natCast_self blsP)
  refine ⟨fun a b => ?_, fun a b => ?_, fun a b => ?_, fun a ha => ?_, fun a b hab => ?_⟩
  · ext <;> simp [opsP2, h.add, toFq2]
  · ext <;> simp [opsP2, h.sub, toFq2]
  · ext
    · simp [opsP2, h.sub, toFq2]; ring
    · simp [opsP2, h.add, toFq2]
  · simp only [opsP2, Bool.or_eq_true] at ha
    intro h0
    rcases ha with ha | ha
    · exact h.unit _ ha (congrArg QuadraticAlgebra.re h0)
    · exact h.unit _ ha (congrArg QuadraticAlgebra.im h0)
  · simp only [opsP2, Bool.and_eq_true] at hab
    ext
    · exact h.eq _ _ hab.1
    · exact h.eq _ _ hab.2

/-- The constant `4 (1 + u)` of the second curve. -/
def blsB2 : BlsFq2 := ⟨4, 4⟩

theorem toFq2_b : toFq2 (4, 4) = blsB2 := by simp [blsB2, toFq2]
theorem toFq2_zero : toFq2 (0, 0) = 0 := by ext <;> simp [toFq2]
theorem toFq2_one : toFq2 (1, 0) = 1 := by
  ext
  · exact Nat.cast_one
  · exact Nat.cast_zero
theorem toFq2_432 : toFq2 (432, 0) = 432 := by
  rw [show (432 : BlsFq2) = ((432 : ℕ) : BlsFq2) by norm_num]
  ext <;> simp [toFq2, -Nat.cast_ofNat]

theorem b2_ok : (64 : BlsFq2) * 0 ^ 3 + 432 * blsB2 ^ 2 ≠ 0 := by
  have := opsP2_sound.unit (opsP2.mul (432, 0) (opsP2.mul (4, 4) (4, 4))) (by decide +kernel)
  simp only [opsP2_sound.mul, toFq2_b, toFq2_432] at this
  intro h
  apply this
  rw [← h]
  ring

/-- The test that a point lies on the second curve. -/
def onCurve2 (x y : ℕ × ℕ) : Bool := opsP2.eq (opsP2.mul y y) (opsP2.add (opsP2.mul x (opsP2.mul x x)) (4, 4))

theorem onCurve2_sound {x y : ℕ × ℕ} (h : onCurve2 x y = true) : (swCurve 0 blsB2).Nonsingular (toFq2 x) (toFq2 y) := by
  rw [sw_nonsingular b2_ok]
  have := opsP2_sound.eq _ _ h
  simp only [opsP2_sound.mul, opsP2_sound.add, toFq2_b] at this
  linear_combination this

theorem order_of_check2 {x y : ℕ × ℕ} {f n : ℕ} (hc : onCurve2 x y = true) (hn : 1 ≤ n)
    (h : jOrder opsP2 (0, 0) x y (1, 0) f n = true) : n • Affine.Point.some _ _ (onCurve2_sound hc) = 0 := by
  have key : ∀ (a : BlsFq2) (_ : a = toFq2 (0, 0)) (hq : (swCurve a blsB2).Nonsingular (toFq2 x) (toFq2 y)),
      n • Affine.Point.some _ _ hq = 0 := by
    rintro a rfl hq
    exact jOrder_sound opsP2_sound toFq2_one hq hn h
  exact key 0 toFq2_zero.symm _

/-! ### the groups -/

/-- The curve of the first group. -/
abbrev blsE1 : Affine BlsFq := swCurve 0 4

/-- The curve of the second group. -/
abbrev blsE2 : Affine BlsFq2 := swCurve 0 blsB2

/-- The points of order `r`: what `is_in_correct_subgroup_assuming_on_curve` tests. -/
def torsion (r : ℕ) (G : Type) [AddCommGroup G] : AddSubgroup G := (nsmulAddMonoidHom (α := G) r).ker

theorem mem_torsion {r : ℕ} {G : Type} [AddCommGroup G] {P : G} : P ∈ torsion r G ↔ r • P = 0 := Iff.rfl

instance torsionModule (G : Type) [AddCommGroup G] : Module (ZMod blsR) (torsion blsR G) :=
  AddCommGroup.zmodModule fun x => Subtype.ext x.2

/-- `G1Affine`, `G1Projective`. -/
abbrev BlsG1 := torsion blsR blsE1.Point

/-- `G2Affine`, `G2Projective`. -/
abbrev BlsG2 := torsion blsR blsE2.Point

theorem g1_on_curve : blsE1.Nonsingular ((blsG1x : ℕ) : BlsFq) ((blsG1y : ℕ) : BlsFq) := by
  have := onCurve_sound (F := BlsFq) (n := blsP) (a := 0) (b := 4) (x := blsG1x) (y := blsG1y) (by decide)
    (ZMod.natCast_self blsP) (by decide +kernel)
  simpa using this

theorem g1_order : blsR • Affine.Point.some _ _ g1_on_curve = 0 := by
  have key : ∀ (a : BlsFq) (_ : a = ((0 : ℕ) : BlsFq)) (hq : (swCurve a 4).Nonsingular ((blsG1x : ℕ) : BlsFq) ((blsG1y : ℕ) : BlsFq)),
      blsR • Affine.Point.some _ _ hq = 0 := by
    rintro a rfl hq
    exact jOrder_sound (opsN_sound (by decide) (ZMod.natCast_self blsP)) (a := 0) (one := 1) (f := 255) (by simp) hq (by decide)
      (by decide +kernel)
  exact key 0 (by simp) _

/-- Generators. -/
def blsG1 : BlsG1 := ⟨.some _ _ g1_on_curve, g1_order⟩

theorem g2_on_curve : onCurve2 blsG2x blsG2y = true := by decide +kernel

def blsG2 : BlsG2 := ⟨.some _ _ (onCurve2_sound g2_on_curve), order_of_check2 (f := 255) g2_on_curve (by decide) (by decide +kernel)⟩

theorem blsG1_ne_zero : blsG1 ≠ 0 := fun h => Affine.Point.some_ne_zero _ (congrArg Subtype.val h)

theorem blsG2_ne_zero : blsG2 ≠ 0 := fun h => Affine.Point.some_ne_zero _ (congrArg Subtype.val h)

theorem card_fq2 : Finite BlsFq2 ∧ Nat.card BlsFq2 = blsP ^ 2 := by
  have e : BlsFq2 ≃ BlsFq × BlsFq := ⟨fun x => (x.re, x.im), fun x => ⟨x.1, x.2⟩, fun _ => rfl, fun _ => rfl⟩
  have : Finite BlsFq2 := Finite.of_equiv _ e.symm
  exact ⟨this, by rw [Nat.card_congr e, Nat.card_prod, Nat.card_zmod, pow_two]⟩

theorem finite_e1 : Finite blsE1.Point := (sw_card_le 0 4).1
theorem finite_e2 : Finite blsE2.Point := by
  have := card_fq2.1
  exact (sw_card_le 0 blsB2).1

theorem card_e1_lt : Nat.card BlsG1 < blsR ^ 2 := by
  have := finite_e1
  have h := (sw_card_le (F := BlsFq) 0 4).2
  rw [Nat.card_zmod] at h
  calc Nat.card BlsG1 ≤ Nat.card blsE1.Point := Nat.card_le_card_of_injective _ Subtype.val_injective
    _ ≤ 2 * blsP + 1 := h
    _ < blsR ^ 2 := by decide +kernel

/-- The second curve has a point of a large prime order, so that it cannot have `r²` points of order `r`. -/
theorem card_e2_lt : Nat.card BlsG2 < blsR ^ 2 := by
  by_contra hle
  rw [not_lt] at hle
  have := card_fq2.1
  have := finite_e2
  have h := (sw_card_le (F := BlsFq2) 0 blsB2).2
  rw [card_fq2.2] at h
  have hfin : Module.Finite (ZMod blsR) BlsG2 := Module.Finite.of_finite
  have h1 : Nat.card BlsG2 = blsR ^ Module.finrank (ZMod blsR) BlsG2 := by
    rw [Module.natCard_eq_pow_finrank (K := ZMod blsR), Nat.card_zmod]
  have hl := order_of_check2 (x := blsLx) (y := blsLy) (f := 448) (n := blsL) (by decide +kernel) (by decide) (by decide +kernel)
  have := Fact.mk blsL_prime
  have ho := addOrderOf_eq_prime hl (Affine.Point.some_ne_zero _)
  have hd1 : blsL ∣ Nat.card blsE2.Point := by rw [← ho]; exact addOrderOf_dvd_natCard _
  have hd2 : Nat.card BlsG2 ∣ Nat.card blsE2.Point := AddSubgroup.card_addSubgroup_dvd_card _
  have hco : Nat.Coprime blsL (Nat.card BlsG2) := by
    rw [h1]
    exact Nat.Coprime.pow_right _ ((Nat.coprime_primes blsL_prime C61_prime).2 (by decide +kernel))
  have hd := hco.mul_dvd_of_dvd_of_dvd hd1 hd2
  have hle2 := Nat.le_of_dvd Nat.card_pos hd
  have : blsL * blsR ^ 2 ≤ 2 * blsP ^ 2 + 1 := (Nat.mul_le_mul_left _ hle).trans (hle2.trans h)
  exact absurd this (by decide +kernel)

end Verif
