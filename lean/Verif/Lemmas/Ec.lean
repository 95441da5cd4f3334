import Mathlib.AlgebraicGeometry.EllipticCurve.Affine.Point
import Mathlib.GroupTheory.OrderOfElement
import Mathlib.Algebra.Module.ZMod
import Mathlib.Algebra.Field.ZMod
import Mathlib.FieldTheory.Finiteness
import Mathlib.LinearAlgebra.FiniteDimensional.Lemmas
import Mathlib.Tactic.LinearCombination

/-!
# Curves `y² = x³ + a x + b`: checked multiples of points, number of points, subgroups of prime order

Used to show that the groups of BLS12-381 have the properties that the theorems assume of `G1` and `G2`.
-/

namespace Verif

open WeierstrassCurve

set_option linter.unusedSectionVars false

variable {F : Type} [Field F] [DecidableEq F]

/-- The curve `y² = x³ + a x + b`. -/
def swCurve (a b : F) : Affine F := ⟨0, 0, 0, a, b⟩

theorem sw_equation {a b x y : F} : (swCurve a b).Equation x y ↔ y ^ 2 = x ^ 3 + a * x + b := by
  rw [Affine.equation_iff]
  simp [swCurve]

theorem sw_nonsingular {a b x y : F} (hd : (64 : F) * a ^ 3 + 432 * b ^ 2 ≠ 0) :
    (swCurve a b).Nonsingular x y ↔ y ^ 2 = x ^ 3 + a * x + b := by
  rw [← Affine.equation_iff_nonsingular_of_Δ_ne_zero, sw_equation]
  simp only [swCurve, WeierstrassCurve.Δ, WeierstrassCurve.b₂, WeierstrassCurve.b₄, WeierstrassCurve.b₆, WeierstrassCurve.b₈]
  intro h
  apply hd
  linear_combination -h

theorem sw_some_congr {a b x y x' y' : F} (h : (swCurve a b).Nonsingular x y) (h' : (swCurve a b).Nonsingular x' y')
    (hx : x = x') (hy : y = y') : Affine.Point.some _ _ h = Affine.Point.some _ _ h' := by
  simp only [Affine.Point.some.injEq]
  exact ⟨hx, hy⟩

/-- Doubling with a given slope. -/
theorem sw_dbl {a b x y l : F} (h : (swCurve a b).Nonsingular x y) (hy : 2 * y ≠ 0) (hl : l * (2 * y) = 3 * x ^ 2 + a) :
    ∃ h' : (swCurve a b).Nonsingular (l ^ 2 - x - x) (l * (x - (l ^ 2 - x - x)) - y),
      Affine.Point.some _ _ h + Affine.Point.some _ _ h = Affine.Point.some _ _ h' := by
  have hne : y ≠ (swCurve a b).negY x y := by
    intro e
    apply hy
    simp only [Affine.negY, swCurve] at e
    linear_combination e
  have hs : (swCurve a b).slope x x y y = l := by
    rw [Affine.slope_of_Y_ne rfl hne]
    have e : y - (swCurve a b).negY x y = 2 * y := by simp [Affine.negY, swCurve]; ring
    rw [e, div_eq_iff hy, hl]
    simp [swCurve]
  have hx : (swCurve a b).addX x x ((swCurve a b).slope x x y y) = l ^ 2 - x - x := by
    rw [hs]; simp [Affine.addX, swCurve]
  have hyy : (swCurve a b).addY x x y ((swCurve a b).slope x x y y) = l * (x - (l ^ 2 - x - x)) - y := by
    rw [hs]; simp [Affine.addY, Affine.negY, Affine.negAddY, Affine.addX, swCurve]; ring
  have hn := Affine.nonsingular_add h h (fun hxy => hne hxy.right)
  refine ⟨by rw [← hyy, ← hx]; exact hn, ?_⟩
  rw [Affine.Point.add_self_of_Y_ne hne]
  exact sw_some_congr _ _ hx hyy

/-- Addition with a given slope. -/
theorem sw_add {a b x y u v l : F} (h : (swCurve a b).Nonsingular x y) (h2 : (swCurve a b).Nonsingular u v) (hx : x - u ≠ 0)
    (hl : l * (x - u) = y - v) :
    ∃ h' : (swCurve a b).Nonsingular (l ^ 2 - x - u) (l * (x - (l ^ 2 - x - u)) - y),
      Affine.Point.some _ _ h + Affine.Point.some _ _ h2 = Affine.Point.some _ _ h' := by
  have hne : x ≠ u := sub_ne_zero.1 hx
  have hs : (swCurve a b).slope x u y v = l := by
    rw [Affine.slope_of_X_ne hne, div_eq_iff hx, hl]
  have hx : (swCurve a b).addX x u ((swCurve a b).slope x u y v) = l ^ 2 - x - u := by
    rw [hs]; simp [Affine.addX, swCurve]
  have hyy : (swCurve a b).addY x u y ((swCurve a b).slope x u y v) = l * (x - (l ^ 2 - x - u)) - y := by
    rw [hs]; simp [Affine.addY, Affine.negY, Affine.negAddY, Affine.addX, swCurve]; ring
  have hn := Affine.nonsingular_add h h2 (fun hxy => hne hxy.left)
  refine ⟨by rw [← hyy, ← hx]; exact hn, ?_⟩
  rw [Affine.Point.add_of_X_ne hne]
  exact sw_some_congr _ _ hx hyy

/-- Computable arithmetic on representatives of field elements. -/
structure FieldOps (A : Type) where
  add : A → A → A
  sub : A → A → A
  mul : A → A → A
  /-- a sufficient test for being non-zero -/
  unit : A → Bool
  eq : A → A → Bool

/-- The arithmetic is right for the elements `φ a` of a field. -/
structure FieldOps.Sound {A : Type} (o : FieldOps A) (φ : A → F) : Prop where
  add : ∀ a b, φ (o.add a b) = φ a + φ b
  sub : ∀ a b, φ (o.sub a b) = φ a - φ b
  mul : ∀ a b, φ (o.mul a b) = φ a * φ b
  unit : ∀ a, o.unit a = true → φ a ≠ 0
  eq : ∀ a b, o.eq a b = true → φ a = φ b

/-- Doubling in Jacobian coordinates (`x = X/Z²`, `y = Y/Z³`). -/
def jDbl {A : Type} (o : FieldOps A) (a : A) (P : A × A × A) : Option (A × A × A) :=
  let (X, Y, Z) := P
  let XX := o.mul X X
  let YY := o.mul Y Y
  let ZZ := o.mul Z Z
  let M := o.add (o.add XX (o.add XX XX)) (o.mul a (o.mul ZZ ZZ))
  let S := o.mul X YY
  let S2 := o.add S S
  let S4 := o.add S2 S2
  let X' := o.sub (o.mul M M) (o.add S4 S4)
  let Q := o.mul YY YY
  let Q2 := o.add Q Q
  let Q4 := o.add Q2 Q2
  let Y' := o.sub (o.mul M (o.sub S4 X')) (o.add Q4 Q4)
  let Z' := o.mul (o.add Y Y) Z
  if o.unit Z' then some (X', Y', Z') else none

/-- Adding an affine point in Jacobian coordinates. -/
def jAdd {A : Type} (o : FieldOps A) (u v : A) (P : A × A × A) : Option (A × A × A) :=
  let (X, Y, Z) := P
  let ZZ := o.mul Z Z
  let U := o.mul u ZZ
  let H := o.sub X U
  let R := o.sub Y (o.mul v (o.mul Z ZZ))
  let HH := o.mul H H
  let X' := o.sub (o.mul R R) (o.mul HH (o.add X U))
  let Y' := o.sub (o.mul R (o.sub (o.mul X HH) X')) (o.mul Y (o.mul H HH))
  let Z' := o.mul Z H
  if o.unit Z' then some (X', Y', Z') else none

/-- Multiples by doubling and adding; `none` if a denominator is not seen to be invertible. The fuel bounds the number of bits. -/
def jMul {A : Type} (o : FieldOps A) (a u v one : A) : ℕ → ℕ → Option (A × A × A)
  | 0, _ => none
  | f + 1, n =>
    if n = 1 then some (u, v, one)
    else
      match jMul o a u v one f (n / 2) with
      | none => none
      | some P =>
        match jDbl o a P with
        | none => none
        | some P => if n % 2 = 1 then jAdd o u v P else some P

/-- The test that `n` times the point `(u, v)` is zero: `(n - 1) (u, v) = - (u, v)`. -/
def jOrder {A : Type} (o : FieldOps A) (a u v one : A) (f n : ℕ) : Bool :=
  match jMul o a u v one f (n - 1) with
  | none => false
  | some (X, Y, Z) =>
    let ZZ := o.mul Z Z
    o.eq X (o.mul u ZZ) && o.eq (o.add Y (o.mul v (o.mul Z ZZ))) (o.sub Z Z)

/-- The Jacobian coordinates `P` denote the point `Q`. -/
def JRep {A : Type} (φ : A → F) (a b : F) (P : A × A × A) (Q : (swCurve a b).Point) : Prop :=
  φ P.2.2 ≠ 0 ∧ ∃ (x y : F) (h : (swCurve a b).Nonsingular x y), Q = .some _ _ h ∧ φ P.1 = x * φ P.2.2 ^ 2 ∧ φ P.2.1 = y * φ P.2.2 ^ 3

theorem jDbl_rep {A : Type} {o : FieldOps A} {φ : A → F} (ho : o.Sound φ) {a : A} {b : F} {P P' : A × A × A}
    {Q : (swCurve (φ a) b).Point} (h : JRep φ (φ a) b P Q) (hd : jDbl o a P = some P') : JRep φ (φ a) b P' (Q + Q) := by
  obtain ⟨X, Y, Z⟩ := P
  obtain ⟨hz, x, y, hxy, rfl, hX, hY⟩ := h
  simp only at hz hX hY
  simp only [jDbl] at hd
  split at hd
  · rename_i hu
    obtain rfl := Option.some.inj hd
    have hz' := ho.unit _ hu
    refine ⟨hz', ?_⟩
    simp only [ho.mul, ho.add] at hz'
    have hy : 2 * y ≠ 0 := by
      intro h0
      apply hz'
      rw [hY, show (y * φ Z ^ 3 + y * φ Z ^ 3) * φ Z = 2 * y * φ Z ^ 4 by ring, h0, zero_mul]
    obtain ⟨l, hl⟩ : ∃ l, l * (2 * y) = 3 * x ^ 2 + φ a := ⟨_, div_mul_cancel₀ _ hy⟩
    obtain ⟨h', e⟩ := sw_dbl (l := l) hxy hy hl
    have ha : φ a = l * (2 * y) - 3 * x ^ 2 := by rw [hl]; ring
    refine ⟨_, _, h', e, ?_, ?_⟩
    · simp only [ho.mul, ho.add, ho.sub, hX, hY]
      rw [ha]
      ring
    · simp only [ho.mul, ho.add, ho.sub, hX, hY]
      rw [ha]
      ring
  · cases hd

theorem jAdd_rep {A : Type} {o : FieldOps A} {φ : A → F} (ho : o.Sound φ) {a b : F} {u v : A} {P P' : A × A × A}
    {Q : (swCurve a b).Point} (huv : (swCurve a b).Nonsingular (φ u) (φ v)) (h : JRep φ a b P Q)
    (hd : jAdd o u v P = some P') : JRep φ a b P' (Q + .some _ _ huv) := by
  obtain ⟨X, Y, Z⟩ := P
  obtain ⟨hz, x, y, hxy, rfl, hX, hY⟩ := h
  simp only at hz hX hY
  simp only [jAdd] at hd
  split at hd
  · rename_i hu
    obtain rfl := Option.some.inj hd
    have hz' := ho.unit _ hu
    refine ⟨hz', ?_⟩
    simp only [ho.mul, ho.sub] at hz'
    have hx : x - φ u ≠ 0 := by
      intro h0
      apply hz'
      rw [hX, show φ Z * (x * φ Z ^ 2 - φ u * (φ Z * φ Z)) = φ Z ^ 3 * (x - φ u) by ring, h0, mul_zero]
    obtain ⟨l, hl⟩ : ∃ l, l * (x - φ u) = y - φ v := ⟨_, div_mul_cancel₀ _ hx⟩
    obtain ⟨h', e⟩ := sw_add (l := l) hxy huv hx hl
    have hv : φ v = y - l * (x - φ u) := by rw [hl]; ring
    refine ⟨_, _, h', e, ?_, ?_⟩
    · simp only [ho.mul, ho.add, ho.sub, hX, hY]
      rw [hv]
      ring
    · simp only [ho.mul, ho.add, ho.sub, hX, hY]
      rw [hv]
      ring
  · cases hd

theorem jMul_rep {A : Type} {o : FieldOps A} {φ : A → F} (ho : o.Sound φ) {a one : A} {b : F} {u v : A} (h1 : φ one = 1)
    (huv : (swCurve (φ a) b).Nonsingular (φ u) (φ v)) (f : ℕ) : ∀ (n : ℕ) (P : A × A × A),
    jMul o a u v one f n = some P → JRep φ (φ a) b P (n • .some _ _ huv) := by
  induction f with
  | zero => intro n P h; cases h
  | succ f ih =>
    intro n P h
    rw [jMul] at h
    split at h
    · rename_i hn
      obtain rfl := Option.some.inj h
      subst hn
      refine ⟨by rw [h1]; exact one_ne_zero, _, _, huv, one_nsmul _, ?_, ?_⟩ <;> simp [h1]
    · split at h
      · cases h
      · rename_i P1 e1
        split at h
        · cases h
        · rename_i P2 e2
          have h2 := jDbl_rep ho (ih _ _ e1) e2
          rw [← add_nsmul] at h2
          split at h
          · rename_i hodd
            have h3 := jAdd_rep ho huv h2 h
            rw [← succ_nsmul] at h3
            rwa [show n / 2 + n / 2 + 1 = n by omega] at h3
          · obtain rfl := Option.some.inj h
            rwa [show n / 2 + n / 2 = n by omega] at h2

theorem jOrder_sound {A : Type} {o : FieldOps A} {φ : A → F} (ho : o.Sound φ) {a one : A} {b : F} {u v : A} (h1 : φ one = 1)
    (huv : (swCurve (φ a) b).Nonsingular (φ u) (φ v)) {f n : ℕ} (hn : 1 ≤ n) (h : jOrder o a u v one f n = true) :
    n • Affine.Point.some _ _ huv = 0 := by
  rw [jOrder] at h
  split at h
  · cases h
  · rename_i X Y Z e
    rw [Bool.and_eq_true] at h
    obtain ⟨hz, x, y, hxy, hq, hX, hY⟩ := jMul_rep ho h1 huv f _ _ e
    have e1 := ho.eq _ _ h.1
    have e2 := ho.eq _ _ h.2
    simp only [ho.mul, ho.add, ho.sub, sub_self] at e1 e2 hX hY hz
    have hx : x = φ u := by
      apply mul_right_cancel₀ (pow_ne_zero 2 hz)
      rw [← hX, e1]
      ring
    have hy : y = - φ v := by
      apply mul_right_cancel₀ (pow_ne_zero 3 hz)
      rw [← hY]
      linear_combination e2
    have hn : n = (n - 1) + 1 := by omega
    rw [hn, succ_nsmul, hq]
    refine Affine.Point.add_of_Y_eq hx ?_
    simp [Affine.negY, swCurve, hy]

open Classical in
/-- A curve over a finite field has at most `2 q + 1` points. -/
theorem sw_card_le [Finite F] (a b : F) : Finite (swCurve a b).Point ∧ Nat.card (swCurve a b).Point ≤ 2 * Nat.card F + 1 := by
  let g : Option (F × Bool) → (swCurve a b).Point := fun o => match o with
    | none => 0
    | some (x, s) => if h : ∃ y, (swCurve a b).Nonsingular x y then
        (if s then Affine.Point.some _ _ h.choose_spec else - Affine.Point.some _ _ h.choose_spec) else 0
  have hg : Function.Surjective g := by
    rintro (_ | ⟨x, y, h⟩)
    · exact ⟨none, rfl⟩
    · have he : ∃ y, (swCurve a b).Nonsingular x y := ⟨y, h⟩
      have h1 := sw_equation.1 he.choose_spec.1
      have h2 := sw_equation.1 h.1
      rcases sq_eq_sq_iff_eq_or_eq_neg.1 (h2.trans h1.symm) with e | e
      · refine ⟨some (x, true), ?_⟩
        simp only [g, dif_pos he, if_true]
        simp only [Affine.Point.some.injEq]
        exact ⟨trivial, e.symm⟩
      · refine ⟨some (x, false), ?_⟩
        simp only [g, dif_pos he]
        simp only [Bool.false_eq_true, if_false, Affine.Point.neg_some, Affine.Point.some.injEq, true_and]
        rw [e]
        simp [Affine.negY, swCurve]
  refine ⟨Finite.of_surjective g hg, ?_⟩
  refine (Nat.card_le_card_of_surjective g hg).trans (le_of_eq ?_)
  rw [Finite.card_option, Nat.card_prod, Nat.card_eq_fintype_card (α := Bool), Fintype.card_bool]
  ring

/-- A point of prime order is only possible on a curve with that many points. -/
theorem sw_order_le [Finite F] {a b : F} {n : ℕ} (hn : n.Prime) (P : (swCurve a b).Point) (hP : P ≠ 0) (h : n • P = 0) :
    n ≤ 2 * Nat.card F + 1 := by
  have := Fact.mk hn
  obtain ⟨hf, hc⟩ := sw_card_le a b
  have := addOrderOf_eq_prime h hP
  calc n = addOrderOf P := this.symm
    _ ≤ Nat.card (swCurve a b).Point := Nat.le_of_dvd Nat.card_pos (addOrderOf_dvd_natCard P)
    _ ≤ _ := hc

/-- A finite vector space over the field with `r` elements and with less than `r²` elements is a line. -/
theorem cyclic_of_card {r : ℕ} [Fact r.Prime] {G : Type} [AddCommGroup G] [Module (ZMod r) G] [Finite G]
    (hc : Nat.card G < r ^ 2) (P Q : G) (hP : P ≠ 0) : ∃ s : ZMod r, Q = s • P := by
  have : Module.Finite (ZMod r) G := Module.Finite.of_finite
  have h1 : Nat.card G = r ^ Module.finrank (ZMod r) G := by
    rw [Module.natCard_eq_pow_finrank (K := ZMod r), Nat.card_zmod]
  have h2 : Module.finrank (ZMod r) G < 2 := by
    rw [h1] at hc
    exact (Nat.pow_lt_pow_iff_right (Fact.out : r.Prime).one_lt).1 hc
  have : Nontrivial G := ⟨P, 0, hP⟩
  have h3 : 0 < Module.finrank (ZMod r) G := Module.finrank_pos
  obtain ⟨c, hc⟩ := exists_smul_eq_of_finrank_eq_one (show Module.finrank (ZMod r) G = 1 by omega) hP Q
  exact ⟨c, hc.symm⟩

end Verif
