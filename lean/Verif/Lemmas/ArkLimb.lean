import Verif.Props.Montgomery
import Verif.Props.Projective
import Verif.Lemmas.ArkMap
import Mathlib.Tactic.Abel

/-!
# The fields as the crate holds them: canonical limbs, and pairs of them (for C129)
-/

namespace Verif

open ArkFp
open Spec (value Limbs Canon residue)

/-- A field whose operations are read off by an injective map into a field. -/
@[reducible] def fieldOfRes {L F : Type} [Field F] [Zero L] [One L] [Add L] [Sub L] [Mul L] [Neg L] [Inv L] (f : L → F)
    (inj : ∀ {a b}, f a = f b → a = b) (zero : f 0 = 0) (one : f 1 = 1) (add : ∀ a b, f (a + b) = f a + f b)
    (sub : ∀ a b, f (a - b) = f a - f b) (mul : ∀ a b, f (a * b) = f a * f b) (neg : ∀ a, f (-a) = -f a)
    (inv : ∀ a, f a⁻¹ = (f a)⁻¹) : Field L where
  add_assoc a b c := inj (by simp only [add]; ring)
  zero_add a := inj (by simp only [add, zero]; ring)
  add_zero a := inj (by simp only [add, zero]; ring)
  add_comm a b := inj (by simp only [add]; ring)
  left_distrib a b c := inj (by simp only [add, mul]; ring)
  right_distrib a b c := inj (by simp only [add, mul]; ring)
  zero_mul a := inj (by simp only [mul, zero]; ring)
  mul_zero a := inj (by simp only [mul, zero]; ring)
  mul_assoc a b c := inj (by simp only [mul]; ring)
  one_mul a := inj (by simp only [mul, one]; ring)
  mul_one a := inj (by simp only [mul, one]; ring)
  neg_add_cancel a := inj (by simp only [add, neg, zero]; ring)
  sub_eq_add_neg a b := inj (by simp only [add, neg, sub]; ring)
  mul_comm a b := inj (by simp only [mul]; ring)
  exists_pair_ne := ⟨0, 1, fun h => by
    have := congrArg f h
    rw [zero, one] at this
    exact zero_ne_one this⟩
  mul_inv_cancel a h := inj (by
    rw [mul, inv, one]
    exact mul_inv_cancel₀ fun h0 => h (inj (h0.trans zero.symm)))
  inv_zero := inj (by rw [inv, zero, inv_zero])
  nsmul := nsmulRec
  zsmul := zsmulRec
  nnqsmul := _
  nnqsmul_def _ _ := rfl
  qsmul := _
  qsmul_def _ _ := rfl

/-- An element of a prime field as it lies in memory: canonical limbs in Montgomery form. -/
structure LimbFp {P : Params} {p n : ℕ} (hP : Spec.FpFor P p n) where
  limbs : List ℕ
  canon : Canon p n limbs

namespace LimbFp

set_option linter.unusedSectionVars false

variable {P : Params} {p n : ℕ} [hpr : Fact p.Prime] {hP : Spec.FpFor P p n}

theorem ext' {a b : LimbFp hP} (h : a.limbs = b.limbs) : a = b := by
  cases a
  cases b
  cases h
  rfl

instance : DecidableEq (LimbFp hP) := fun a b => decidable_of_iff (a.limbs = b.limbs) ⟨ext', fun h => h ▸ rfl⟩

/-- The residue an element stands for. -/
noncomputable def res (a : LimbFp hP) : ZMod p := residue p n a.limbs

theorem res_inj {a b : LimbFp hP} (h : a.res = b.res) : a = b := by
  obtain ⟨l, -, hu⟩ := (C128 hP).2.2.1 a.res
  exact ext' ((hu _ ⟨a.canon, rfl⟩).trans (hu _ ⟨b.canon, h.symm⟩).symm)

instance : Zero (LimbFp hP) := ⟨⟨List.replicate n 0, limbs_replicate n, by rw [value_replicate]; exact hpr.out.pos⟩⟩

/-- `P::R`, the Montgomery form of one. -/
instance : One (LimbFp hP) :=
  ⟨⟨ArkFp.mul P (ArkFp.one n) P.r2, (mul_canon hP ⟨(one_limbs (pos hP)).1, by rw [(one_limbs (pos hP)).2]; exact hpr.out.one_lt⟩
    hP.r2_limbs).1⟩⟩

instance : Add (LimbFp hP) := ⟨fun a b => ⟨ArkFp.add P a.limbs b.limbs, ((C128 hP).1 _ _ a.canon b.canon).1.1⟩⟩
instance : Sub (LimbFp hP) := ⟨fun a b => ⟨ArkFp.sub P a.limbs b.limbs, ((C128 hP).1 _ _ a.canon b.canon).2.1.1⟩⟩
instance : Mul (LimbFp hP) := ⟨fun a b => ⟨ArkFp.mul P a.limbs b.limbs, ((C128 hP).1 _ _ a.canon b.canon).2.2.1⟩⟩
instance : Neg (LimbFp hP) := ⟨fun a => ⟨ArkFp.neg P a.limbs, ((C128 hP).2.1 _ a.canon).1.1⟩⟩

theorem inverse_canon' (a : LimbFp hP) {y : List ℕ} (h : ArkFp.inverse P a.limbs = some y) : Canon p n y := by
  obtain ⟨-, -, -, h0, h1, -⟩ := (C128 hP).2.1 _ a.canon
  by_cases hz : residue p n a.limbs = 0
  · rw [h0 hz] at h
    cases h
  · obtain ⟨y', e, h2, -⟩ := h1 hz
    rw [h] at e
    cases e
    exact h2

/-- `inverse`, where there is one, and zero otherwise. -/
instance : Inv (LimbFp hP) :=
  ⟨fun a => match h : ArkFp.inverse P a.limbs with
    | some y => ⟨y, inverse_canon' a h⟩
    | none => 0⟩

theorem res_zero : (0 : LimbFp hP).res = 0 := (residue_zero_iff hP (0 : LimbFp hP).canon).2 (value_replicate n)

theorem res_one : (1 : LimbFp hP).res = 1 := by
  obtain ⟨-, h⟩ := mul_canon hP (a := ArkFp.one n) ⟨(one_limbs (pos hP)).1, by rw [(one_limbs (pos hP)).2]; exact hpr.out.one_lt⟩
    hP.r2_limbs
  rw [res, residue_iff hP]
  rw [(one_limbs (pos hP)).2, r2_cast hP] at h
  apply mul_right_cancel₀ (rr_ne hP)
  push_cast at h
  refine Eq.trans h ?_
  ring

theorem res_add (a b : LimbFp hP) : (a + b).res = a.res + b.res := ((C128 hP).1 _ _ a.canon b.canon).1.2
theorem res_sub (a b : LimbFp hP) : (a - b).res = a.res - b.res := ((C128 hP).1 _ _ a.canon b.canon).2.1.2
theorem res_mul (a b : LimbFp hP) : (a * b).res = a.res * b.res := ((C128 hP).1 _ _ a.canon b.canon).2.2.2
theorem res_neg (a : LimbFp hP) : (-a).res = -a.res := ((C128 hP).2.1 _ a.canon).1.2

theorem inv_of_some {a : LimbFp hP} {y : List ℕ} (h : ArkFp.inverse P a.limbs = some y) : a⁻¹.limbs = y := by
  show (match h : ArkFp.inverse P a.limbs with
    | some y => (⟨y, inverse_canon' a h⟩ : LimbFp hP)
    | none => 0).limbs = y
  split
  · rename_i y' h'
    rw [h] at h'
    cases h'
    rfl
  · rename_i h'
    rw [h] at h'
    cases h'

theorem inv_of_none {a : LimbFp hP} (h : ArkFp.inverse P a.limbs = none) : a⁻¹ = 0 := by
  show (match h : ArkFp.inverse P a.limbs with
    | some y => (⟨y, inverse_canon' a h⟩ : LimbFp hP)
    | none => 0) = 0
  split
  · rename_i y' h'
    rw [h] at h'
    cases h'
  · rfl

theorem res_inv (a : LimbFp hP) : a⁻¹.res = a.res⁻¹ := by
  obtain ⟨-, -, -, h0, h1, -⟩ := (C128 hP).2.1 _ a.canon
  by_cases hz : a.res = 0
  · rw [inv_of_none (h0 hz), hz, res_zero, inv_zero]
  · obtain ⟨y, e, -, h3⟩ := h1 hz
    rw [res, inv_of_some e]
    exact h3

/-- The field operations are those on limbs. -/
noncomputable instance instField : Field (LimbFp hP) := fieldOfRes res res_inj res_zero res_one res_add res_sub res_mul res_neg res_inv

/-- Reading the limbs as a residue, a homomorphism. -/
noncomputable def resHom : LimbFp hP →+* ZMod p where
  toFun := res
  map_zero' := res_zero
  map_one' := res_one
  map_add' := res_add
  map_mul' := res_mul

end LimbFp

/-! ### the quadratic extension -/

/-- The base field of BLS12-381 in limbs. -/
abbrev FqL := LimbFp C128_bls.2

/-- The scalar field of BLS12-381 in limbs. -/
abbrev FrL := LimbFp C128_bls.1

/-- `QuadExtField { c0, c1 }` over the limbs. -/
structure Fq2L where
  c0 : FqL
  c1 : FqL
deriving DecidableEq

namespace Fq2L

open LimbFp

/-- The element of the extension a pair stands for. -/
noncomputable def res (a : Fq2L) : BlsFq2 := ⟨a.c0.res, a.c1.res⟩

theorem res_inj {a b : Fq2L} (h : a.res = b.res) : a = b := by
  have h0 : a.c0 = b.c0 := LimbFp.res_inj (congrArg QuadraticAlgebra.re h)
  have h1 : a.c1 = b.c1 := LimbFp.res_inj (congrArg QuadraticAlgebra.im h)
  cases a
  cases b
  cases h0
  cases h1
  rfl

instance : Zero Fq2L := ⟨⟨0, 0⟩⟩
instance : One Fq2L := ⟨⟨1, 0⟩⟩
instance : Add Fq2L := ⟨fun a b => ⟨a.c0 + b.c0, a.c1 + b.c1⟩⟩
instance : Sub Fq2L := ⟨fun a b => ⟨a.c0 - b.c0, a.c1 - b.c1⟩⟩
instance : Neg Fq2L := ⟨fun a => ⟨-a.c0, -a.c1⟩⟩
/-- `mul_assign`: Karatsuba's method, as in `fq2Mul`. -/
instance : Mul Fq2L := ⟨fun a b =>
  let v0 := a.c0 * b.c0
  let v1 := a.c1 * b.c1
  ⟨v0 + -v1, (a.c1 + a.c0) * (b.c0 + b.c1) - v0 - v1⟩⟩
/-- `inverse`, as in `fq2Inv`, and zero for zero. -/
instance : Inv Fq2L := ⟨fun a =>
  let v1 := a.c1 * a.c1
  let v0 := a.c0 * a.c0 - -v1
  let v1 := v0⁻¹
  ⟨a.c0 * v1, -(a.c1 * v1)⟩⟩

/-- `square_in_place`, as in `fq2Square`. -/
noncomputable def square (a : Fq2L) : Fq2L :=
  let v0 := a.c0 - a.c1
  let v3 := a.c0 - -a.c1
  let v2 := a.c0 * a.c1
  let v0 := v0 * v3 + v2
  ⟨v0 + -v2, 2 * v2⟩

theorem res_zero : (0 : Fq2L).res = 0 := by
  ext
  · exact LimbFp.res_zero
  · exact LimbFp.res_zero

theorem res_one : (1 : Fq2L).res = 1 := by
  ext
  · exact LimbFp.res_one
  · exact LimbFp.res_zero

theorem res_add (a b : Fq2L) : (a + b).res = a.res + b.res := by
  ext
  · exact LimbFp.res_add _ _
  · exact LimbFp.res_add _ _

theorem res_sub (a b : Fq2L) : (a - b).res = a.res - b.res := by
  ext
  · exact LimbFp.res_sub _ _
  · exact LimbFp.res_sub _ _

theorem res_neg (a : Fq2L) : (-a).res = -a.res := by
  ext
  · exact LimbFp.res_neg _
  · exact LimbFp.res_neg _

theorem res_mul (a b : Fq2L) : (a * b).res = a.res * b.res := by
  rw [← (C126_field a.res b.res).1]
  ext
  · show (a.c0 * b.c0 + -(a.c1 * b.c1)).res = _
    simp only [LimbFp.res_add, LimbFp.res_mul, LimbFp.res_neg]
    rfl
  · show ((a.c1 + a.c0) * (b.c0 + b.c1) - a.c0 * b.c0 - a.c1 * b.c1).res = _
    simp only [LimbFp.res_add, LimbFp.res_mul, LimbFp.res_sub]
    rfl

theorem res_square (a : Fq2L) : a.square.res = a.res * a.res := by
  rw [← (C126_field a.res a.res).2.1]
  ext
  · show ((a.c0 - a.c1) * (a.c0 - -a.c1) + a.c0 * a.c1 + -(a.c0 * a.c1)).res = _
    simp only [LimbFp.res_add, LimbFp.res_mul, LimbFp.res_sub, LimbFp.res_neg]
    rfl
  · show (2 * (a.c0 * a.c1) : FqL).res = _
    rw [two_mul, LimbFp.res_add, LimbFp.res_mul, ← two_mul]
    rfl

theorem res_inv (a : Fq2L) : a⁻¹.res = a.res⁻¹ := by
  by_cases h : a.res = 0
  · have h0 : a = 0 := res_inj (h.trans res_zero.symm)
    rw [h, inv_zero, h0]
    ext
    · show (0 * _ : FqL).res = 0
      rw [zero_mul]
      exact LimbFp.res_zero
    · show (-(0 * _) : FqL).res = 0
      rw [zero_mul, neg_zero]
      exact LimbFp.res_zero
  · have h1 := (C126_field a.res a.res).2.2.2 h
    rw [fq2Inv, if_neg fun h' => h (by ext; exacts [h'.1, h'.2])] at h1
    rw [← Option.some.inj h1]
    ext
    · show (a.c0 * (a.c0 * a.c0 - -(a.c1 * a.c1))⁻¹).res = _
      simp only [LimbFp.res_mul, LimbFp.res_inv, LimbFp.res_sub, LimbFp.res_neg]
      rfl
    · show (-(a.c1 * (a.c0 * a.c0 - -(a.c1 * a.c1))⁻¹)).res = _
      simp only [LimbFp.res_mul, LimbFp.res_inv, LimbFp.res_sub, LimbFp.res_neg]
      rfl

/-- The field operations are those on pairs of limbs. -/
noncomputable instance instField : Field Fq2L := fieldOfRes res res_inj res_zero res_one res_add res_sub res_mul res_neg res_inv

/-- Reading pairs of limbs as elements of the extension, a homomorphism. -/
noncomputable def resHom : Fq2L →+* BlsFq2 where
  toFun := res
  map_zero' := res_zero
  map_one' := res_one
  map_add' := res_add
  map_mul' := res_mul

end Fq2L

end Verif
