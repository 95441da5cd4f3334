import Verif.Lemmas.ArkFp
import Verif.Props.Field

/-!
# C128: the limb arithmetic of the prime fields is that of `ZMod p`
-/

namespace Verif

open ArkFp

/-- The residue that `n` limbs in Montgomery form stand for. -/
noncomputable def Spec.residue (p n : ℕ) [Fact p.Prime] (l : List ℕ) : ZMod p := (Spec.value l : ZMod p) * ((2 : ZMod p) ^ (64 * n))⁻¹

/-- Expressions in variables and 64-bit constants with the operations on field elements that the crate and its dependencies use. -/
inductive Spec.FieldExpr where
  | var (i : ℕ)
  | const (c : ℕ)
  | add (x y : Spec.FieldExpr)
  | sub (x y : Spec.FieldExpr)
  | mul (x y : Spec.FieldExpr)
  | neg (x : Spec.FieldExpr)
  | double (x : Spec.FieldExpr)
  | square (x : Spec.FieldExpr)
  | inverse (x : Spec.FieldExpr)

/-- The value of an expression in the field; none if zero is inverted. -/
def Spec.FieldExpr.eval {p : ℕ} [Fact p.Prime] (ρ : ℕ → ZMod p) : Spec.FieldExpr → Option (ZMod p)
  | var i => some (ρ i)
  | const c => some c
  | add x y => (x.eval ρ).bind fun u => (y.eval ρ).map fun v => u + v
  | sub x y => (x.eval ρ).bind fun u => (y.eval ρ).map fun v => u - v
  | mul x y => (x.eval ρ).bind fun u => (y.eval ρ).map fun v => u * v
  | neg x => (x.eval ρ).map fun u => -u
  | double x => (x.eval ρ).map fun u => 2 * u
  | square x => (x.eval ρ).map fun u => u ^ 2
  | inverse x => (x.eval ρ).bind fun u => if u = 0 then none else some u⁻¹

/-- The value of an expression in limbs; none if `inverse` is `None`. -/
def Spec.FieldExpr.evalLimbs (P : Params) (ρ : ℕ → List ℕ) : Spec.FieldExpr → Option (List ℕ)
  | var i => some (ρ i)
  | const c => fromRepr P (c :: List.replicate (P.modulus.length - 1) 0)
  | add x y => (x.evalLimbs P ρ).bind fun u => (y.evalLimbs P ρ).map fun v => ArkFp.add P u v
  | sub x y => (x.evalLimbs P ρ).bind fun u => (y.evalLimbs P ρ).map fun v => ArkFp.sub P u v
  | mul x y => (x.evalLimbs P ρ).bind fun u => (y.evalLimbs P ρ).map fun v => ArkFp.mul P u v
  | neg x => (x.evalLimbs P ρ).map fun u => ArkFp.neg P u
  | double x => (x.evalLimbs P ρ).map fun u => ArkFp.double P u
  | square x => (x.evalLimbs P ρ).map fun u => ArkFp.square P u
  | inverse x => (x.evalLimbs P ρ).bind fun u => ArkFp.inverse P u

/-- The constants of an expression fit in 64 bits. -/
def Spec.FieldExpr.Fits : Spec.FieldExpr → Prop
  | var _ => True
  | const c => c < 2 ^ 64
  | add x y => x.Fits ∧ y.Fits
  | sub x y => x.Fits ∧ y.Fits
  | mul x y => x.Fits ∧ y.Fits
  | neg x => x.Fits
  | double x => x.Fits
  | square x => x.Fits
  | inverse x => x.Fits

namespace ArkFp

open Spec (value Limbs Canon residue)

section
variable {P : Params} {p n : ℕ} [hpr : Fact p.Prime] (hP : Spec.FpFor P p n)
include hP

theorem rr_ne : ((2 : ZMod p) ^ (64 * n)) ≠ 0 := pow_ne_zero _ (two_ne_zero' hP)

theorem residue_iff {l : List ℕ} {z : ZMod p} : residue p n l = z ↔ (value l : ZMod p) = z * 2 ^ (64 * n) := by
  rw [residue, ← div_eq_mul_inv, div_eq_iff (rr_ne hP)]

theorem value_eq (l : List ℕ) : (value l : ZMod p) = residue p n l * 2 ^ (64 * n) := (residue_iff hP).1 rfl

theorem residue_zero_iff {l : List ℕ} (hl : Canon p n l) : residue p n l = 0 ↔ value l = 0 := by
  rw [residue_iff hP, zero_mul, ZMod.natCast_eq_zero_iff]
  exact ⟨fun h => Nat.eq_zero_of_dvd_of_lt h hl.2, fun h => h ▸ dvd_zero p⟩

theorem fromRepr_spec {l : List ℕ} (hl : Limbs n l) :
    (value l < p → ∃ y, fromRepr P l = some y ∧ Canon p n y ∧ residue p n y = value l) ∧ (p ≤ value l → fromRepr P l = none) := by
  refine ⟨fun h => ?_, fun h => ?_⟩
  · unfold fromRepr
    by_cases h0 : isZero l = true
    · rw [if_pos h0]
      refine ⟨l, rfl, ⟨hl, h⟩, ?_⟩
      rw [residue_iff hP, (isZero_iff hl).1 h0]
      simp
    · rw [if_neg h0, if_pos ((cmp_lt_iff hl hP.limbs).2 (by rw [hP.modulus]; exact h))]
      obtain ⟨h1, h2⟩ := mul_canon hP (a := l) ⟨hl, h⟩ hP.r2_limbs
      refine ⟨_, rfl, h1, ?_⟩
      rw [residue_iff hP]
      rw [r2_cast hP] at h2
      apply mul_right_cancel₀ (rr_ne hP)
      push_cast at h2
      rw [h2]
      ring
  · unfold fromRepr
    rw [if_neg fun h0 => ?_, if_neg fun h1 => ?_]
    · rw [cmp_lt_iff hl hP.limbs, hP.modulus] at h1
      omega
    · rw [isZero_iff hl] at h0
      have := hpr.out.pos
      omega

end

end ArkFp

open ArkFp
open Spec (value Limbs Canon residue)

section
variable {P : Params} {p n : ℕ} [hpr : Fact p.Prime] (hP : Spec.FpFor P p n)
include hP

/-- **C128.** Let the parameters be those of a prime `p` with a free bit in its `n` limbs.  On canonical limbs `add_assign`,
`sub_assign`, `mul_assign`, `neg`, `double_in_place`, `square_in_place` and `inverse` give canonical limbs of the sum, difference,
product, negative, double, square and inverse (`None` for zero only); every residue has exactly one canonical form, so `==` decides
equality; `from_repr` gives the residue of the number for numbers below the modulus and `None` for others, and `into_repr` gives the
number of the residue. -/
theorem C128 :
    (∀ a b, Canon p n a → Canon p n b →
      (Canon p n (add P a b) ∧ residue p n (add P a b) = residue p n a + residue p n b) ∧
      (Canon p n (sub P a b) ∧ residue p n (sub P a b) = residue p n a - residue p n b) ∧
      (Canon p n (mul P a b) ∧ residue p n (mul P a b) = residue p n a * residue p n b)) ∧
    (∀ a, Canon p n a →
      (Canon p n (neg P a) ∧ residue p n (neg P a) = -residue p n a) ∧
      (Canon p n (double P a) ∧ residue p n (double P a) = 2 * residue p n a) ∧
      (Canon p n (square P a) ∧ residue p n (square P a) = residue p n a ^ 2) ∧
      (residue p n a = 0 → inverse P a = none) ∧
      (residue p n a ≠ 0 → ∃ y, inverse P a = some y ∧ Canon p n y ∧ residue p n y = (residue p n a)⁻¹) ∧
      (Limbs n (intoRepr P a) ∧ value (intoRepr P a) = (residue p n a).val)) ∧
    (∀ z : ZMod p, ∃! l, Canon p n l ∧ residue p n l = z) ∧
    (∀ l, Limbs n l →
      (value l < p → ∃ y, fromRepr P l = some y ∧ Canon p n y ∧ residue p n y = value l) ∧
      (p ≤ value l → fromRepr P l = none)) := by
  refine ⟨fun a b ha hb => ⟨?_, ?_, ?_⟩, fun a ha => ⟨?_, ?_, ?_, fun h => ?_, fun h => ?_, ?_⟩, fun z => ?_, fun l hl => fromRepr_spec hP hl⟩
  · obtain ⟨h1, h2⟩ := add_canon hP ha hb
    refine ⟨h1, ?_⟩
    rw [residue, h2, add_mul]
    rfl
  · obtain ⟨h1, h2⟩ := sub_canon hP ha hb
    refine ⟨h1, ?_⟩
    rw [residue, h2, sub_mul]
    rfl
  · obtain ⟨h1, h2⟩ := mul_canon hP ha hb.1
    refine ⟨h1, ?_⟩
    rw [residue_iff hP]
    apply mul_right_cancel₀ (rr_ne hP)
    push_cast at h2
    rw [h2, value_eq hP a, value_eq hP b]
    ring
  · obtain ⟨h1, h2⟩ := neg_canon hP ha
    refine ⟨h1, ?_⟩
    rw [residue, h2, neg_mul]
    rfl
  · obtain ⟨h1, h2⟩ := double_canon hP ha
    refine ⟨h1, ?_⟩
    rw [residue, h2, ← two_mul, mul_assoc]
    rfl
  · obtain ⟨h1, h2⟩ := square_canon hP ha
    refine ⟨h1, ?_⟩
    rw [residue_iff hP]
    apply mul_right_cancel₀ (rr_ne hP)
    push_cast at h2
    rw [h2, value_eq hP a]
    ring
  · unfold inverse
    rw [if_pos ((isZero_iff ha.1).2 ((residue_zero_iff hP ha).1 h))]
  · obtain ⟨y, h1, h2, h3⟩ := inverse_canon hP ha fun h0 => h ((residue_zero_iff hP ha).2 h0)
    refine ⟨y, h1, h2, eq_inv_of_mul_eq_one_left ?_⟩
    apply mul_right_cancel₀ (mul_ne_zero (rr_ne hP) (rr_ne hP))
    push_cast at h3
    rw [value_eq hP y, value_eq hP a] at h3
    linear_combination h3
  · obtain ⟨h1, h2⟩ := intoRepr_canon hP ha
    refine ⟨h1.1, ?_⟩
    have h3 : residue p n a = value (intoRepr P a) := by
      rw [residue_iff hP, ← h2]
      push_cast
      rfl
    rw [h3, ZMod.val_natCast, Nat.mod_eq_of_lt h1.2]
  · have hz := ZMod.val_lt z
    obtain ⟨l, hl, hv⟩ : ∃ l, Limbs n l ∧ value l = z.val := by
      have : ∀ (k m : ℕ), m < 2 ^ (64 * k) → ∃ l, Limbs k l ∧ value l = m := by
        intro k
        induction k with
        | zero => exact fun m hm => ⟨[], ⟨rfl, fun x hx => by cases hx⟩, by simp at hm; exact hm.symm⟩
        | succ k ih =>
          intro m hm
          rw [show 64 * (k + 1) = 64 + 64 * k by ring, pow_add] at hm
          obtain ⟨l, h1, h2⟩ := ih (m / 2 ^ 64) (Nat.div_lt_of_lt_mul hm)
          refine ⟨m % 2 ^ 64 :: l, Spec.Limbs.cons (Nat.mod_lt _ (by norm_num)) h1, ?_⟩
          rw [value, h2, Nat.mod_add_div]
      exact this n _ (lt_trans hz (by have := hP.free; omega))
    obtain ⟨y, -, h2, h3⟩ := (fromRepr_spec hP hl).1 (by rw [hv]; exact hz)
    refine ⟨y, ⟨h2, by rw [h3, hv, ZMod.natCast_val, ZMod.cast_id]⟩, fun y' h' => ?_⟩
    have h4 : (value y' : ZMod p) = value y := by
      rw [value_eq hP y', value_eq hP y, h'.2, h3, hv, ZMod.natCast_val, ZMod.cast_id]
    rw [ZMod.natCast_eq_natCast_iff', Nat.mod_eq_of_lt h'.1.2, Nat.mod_eq_of_lt h2.2] at h4
    exact value_inj h'.1.1 h2.1 h4

/-- Whole computations: with canonical inputs the limbs of every expression are the canonical form of its value, and the computation
in limbs stops at an inversion exactly if the one in the field inverts zero. -/
theorem C128_expr (hbig : 2 ^ 64 ≤ p) (e : Spec.FieldExpr) (he : e.Fits) (ρ : ℕ → List ℕ) (hρ : ∀ i, Canon p n (ρ i)) :
    (e.eval (fun i => residue p n (ρ i)) = none ↔ e.evalLimbs P ρ = none) ∧
    ∀ l, e.evalLimbs P ρ = some l → Canon p n l ∧ e.eval (fun i => residue p n (ρ i)) = some (residue p n l) := by
  obtain ⟨hbin, hun, -, hrep⟩ := C128 hP
  have bin : ∀ (x y : Spec.FieldExpr) (f : List ℕ → List ℕ → List ℕ) (g : ZMod p → ZMod p → ZMod p),
      (∀ a b, Canon p n a → Canon p n b → Canon p n (f a b) ∧ residue p n (f a b) = g (residue p n a) (residue p n b)) →
      ((x.eval (fun i => residue p n (ρ i)) = none ↔ x.evalLimbs P ρ = none) ∧
        ∀ l, x.evalLimbs P ρ = some l → Canon p n l ∧ x.eval (fun i => residue p n (ρ i)) = some (residue p n l)) →
      ((y.eval (fun i => residue p n (ρ i)) = none ↔ y.evalLimbs P ρ = none) ∧
        ∀ l, y.evalLimbs P ρ = some l → Canon p n l ∧ y.eval (fun i => residue p n (ρ i)) = some (residue p n l)) →
      (((x.eval fun i => residue p n (ρ i)).bind fun u => (y.eval fun i => residue p n (ρ i)).map fun v => g u v) = none ↔
        ((x.evalLimbs P ρ).bind fun u => (y.evalLimbs P ρ).map fun v => f u v) = none) ∧
      ∀ l, ((x.evalLimbs P ρ).bind fun u => (y.evalLimbs P ρ).map fun v => f u v) = some l → Canon p n l ∧
        ((x.eval fun i => residue p n (ρ i)).bind fun u => (y.eval fun i => residue p n (ρ i)).map fun v => g u v) =
          some (residue p n l) := by
    intro x y f g hfg hx hy
    cases h1 : x.evalLimbs P ρ with
    | none => rw [hx.1.2 h1]; simp
    | some u =>
      obtain ⟨hu, hu'⟩ := hx.2 u h1
      cases h2 : y.evalLimbs P ρ with
      | none => rw [hy.1.2 h2]; simp
      | some v =>
        obtain ⟨hv, hv'⟩ := hy.2 v h2
        rw [hu', hv']
        obtain ⟨h3, h4⟩ := hfg u v hu hv
        refine ⟨by simp, fun l hl => ?_⟩
        simp only [Option.bind_some, Option.map_some, Option.some.injEq] at hl ⊢
        rw [← hl]
        exact ⟨h3, h4.symm⟩
  have una : ∀ (x : Spec.FieldExpr) (f : List ℕ → List ℕ) (g : ZMod p → ZMod p),
      (∀ a, Canon p n a → Canon p n (f a) ∧ residue p n (f a) = g (residue p n a)) →
      ((x.eval (fun i => residue p n (ρ i)) = none ↔ x.evalLimbs P ρ = none) ∧
        ∀ l, x.evalLimbs P ρ = some l → Canon p n l ∧ x.eval (fun i => residue p n (ρ i)) = some (residue p n l)) →
      (((x.eval fun i => residue p n (ρ i)).map fun u => g u) = none ↔ ((x.evalLimbs P ρ).map fun u => f u) = none) ∧
      ∀ l, ((x.evalLimbs P ρ).map fun u => f u) = some l → Canon p n l ∧
        ((x.eval fun i => residue p n (ρ i)).map fun u => g u) = some (residue p n l) := by
    intro x f g hfg hx
    cases h1 : x.evalLimbs P ρ with
    | none => rw [hx.1.2 h1]; simp
    | some u =>
      obtain ⟨hu, hu'⟩ := hx.2 u h1
      rw [hu']
      obtain ⟨h3, h4⟩ := hfg u hu
      refine ⟨by simp, fun l hl => ?_⟩
      simp only [Option.map_some, Option.some.injEq] at hl ⊢
      rw [← hl]
      exact ⟨h3, h4.symm⟩
  induction e with
  | var i =>
    refine ⟨by simp [Spec.FieldExpr.eval, Spec.FieldExpr.evalLimbs], fun l hl => ?_⟩
    simp only [Spec.FieldExpr.evalLimbs, Option.some.injEq] at hl
    rw [← hl]
    exact ⟨hρ i, rfl⟩
  | const c =>
    have hl : Limbs n (c :: List.replicate (P.modulus.length - 1) 0) := by
      rw [hP.limbs.1]
      obtain ⟨n', rfl⟩ : ∃ n', n = n' + 1 := Nat.exists_eq_succ_of_ne_zero (pos hP).ne'
      exact Spec.Limbs.cons he (limbs_replicate n')
    have hv : value (c :: List.replicate (P.modulus.length - 1) 0) = c := by rw [value, value_replicate]; rfl
    obtain ⟨y, h1, h2, h3⟩ := (hrep _ hl).1 (by rw [hv]; exact lt_of_lt_of_le he hbig)
    rw [hv] at h3
    simp only [Spec.FieldExpr.eval, Spec.FieldExpr.evalLimbs, h1, Option.some.injEq]
    exact ⟨by simp, fun l hl => hl ▸ ⟨h2, h3.symm⟩⟩
  | add x y hx hy => exact bin x y _ _ (fun a b ha hb => (hbin a b ha hb).1) (hx he.1) (hy he.2)
  | sub x y hx hy => exact bin x y _ _ (fun a b ha hb => (hbin a b ha hb).2.1) (hx he.1) (hy he.2)
  | mul x y hx hy => exact bin x y _ _ (fun a b ha hb => (hbin a b ha hb).2.2) (hx he.1) (hy he.2)
  | neg x hx => exact una x _ _ (fun a ha => (hun a ha).1) (hx he)
  | double x hx => exact una x _ _ (fun a ha => (hun a ha).2.1) (hx he)
  | square x hx => exact una x _ _ (fun a ha => (hun a ha).2.2.1) (hx he)
  | inverse x hx =>
    simp only [Spec.FieldExpr.eval, Spec.FieldExpr.evalLimbs]
    cases h1 : x.evalLimbs P ρ with
    | none => rw [(hx he).1.2 h1]; simp
    | some u =>
      obtain ⟨hu, hu'⟩ := (hx he).2 u h1
      rw [hu']
      simp only [Option.bind_some]
      by_cases h0 : residue p n u = 0
      · rw [if_pos h0, (hun u hu).2.2.2.1 h0]
        simp
      · obtain ⟨y, h2, h3, h4⟩ := (hun u hu).2.2.2.2.1 h0
        rw [if_neg h0, h2]
        refine ⟨by simp, fun l hl => ?_⟩
        rw [← Option.some.inj hl]
        exact ⟨h3, by rw [h4]⟩

end

/-- The published parameters of the scalar field and the base field of BLS12-381 are right. -/
theorem C128_bls : Spec.FpFor fr blsR 4 ∧ Spec.FpFor fq blsP 6 := by
  refine ⟨⟨⟨rfl, ?_⟩, ?_, ?_, ⟨rfl, ?_⟩, ?_, ?_⟩, ⟨⟨rfl, ?_⟩, ?_, ?_, ⟨rfl, ?_⟩, ?_, ?_⟩⟩ <;> decide +kernel

/-- `2 · 3 = 6` in Montgomery form, computed with the limbs of the scalar field. -/
example :
    (fromRepr fr [2, 0, 0, 0]).bind (fun a => (fromRepr fr [3, 0, 0, 0]).map fun b => intoRepr fr (mul fr a b)) = some [6, 0, 0, 0] ∧
    (fromRepr fr [3, 0, 0, 0]).map (fun a => intoRepr fr (square fr a)) = some [9, 0, 0, 0] ∧
    (fromRepr fr [2, 0, 0, 0]).map (fun a => intoRepr fr (neg fr a)) =
      some [0xfffffffeffffffff, 0x53bda402fffe5bfe, 0x3339d80809a1d805, 0x73eda753299d7d48] ∧
    fromRepr fr [0xffffffff00000001, 0x53bda402fffe5bfe, 0x3339d80809a1d805, 0x73eda753299d7d48] = none := by
  decide +kernel

/-- The inverse of two in the scalar field is `(r + 1) / 2`, and zero has none. -/
example :
    ((fromRepr fr [2, 0, 0, 0]).bind (inverse fr)).map (intoRepr fr) = some [0x7fffffff80000001, 0xa9ded2017fff2dff, 0x199cec0404d0ec02, 0x39f6d3a994cebea4] ∧
    inverse fr [0, 0, 0, 0] = none := by
  decide +kernel

end Verif
