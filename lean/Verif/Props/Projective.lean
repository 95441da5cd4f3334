import Verif.Lemmas.ArkMsm
import Verif.Model.Schnorr
import Verif.Props.Bls

/-!
# C126: computing in coordinates is computing in the group

The model of the crate computes in groups.  The crate computes with three Jacobian coordinates and converts to affine ones and
back in almost every line.  The functions of `Verif/Model/ArkProj.lean` compute the group law, whatever coordinates represent
the points and also in the exceptional cases (infinity, equal points, opposite points, points of order two).
-/

namespace Verif

open WeierstrassCurve

variable {F : Type} [Field F] [DecidableEq F]

/-- The computations with points that the crate makes, on numbered affine inputs. -/
inductive Spec.Calc
  | zero
  /-- an input, `into_projective` -/
  | input (i : ℕ)
  | neg (e : Spec.Calc)
  /-- `into_affine`, then `neg` and `into_projective` -/
  | negAffine (e : Spec.Calc)
  | add (e e' : Spec.Calc)
  | sub (e e' : Spec.Calc)
  /-- `into_affine` of the second, then `add_assign_mixed` -/
  | mixed (e e' : Spec.Calc)
  /-- `into_affine`, then `mul` -/
  | scale (e : Spec.Calc) (bits : List Bool)
  /-- `mul` of a projective point -/
  | mul (e : Spec.Calc) (bits : List Bool)

/-- The value in a group. -/
def Spec.Calc.meaning {G : Type} [AddCommGroup G] (inp : ℕ → G) : Spec.Calc → G
  | .zero => 0
  | .input i => inp i
  | .neg e => -e.meaning inp
  | .negAffine e => -e.meaning inp
  | .add e e' => e.meaning inp + e'.meaning inp
  | .sub e e' => e.meaning inp - e'.meaning inp
  | .mixed e e' => e.meaning inp + e'.meaning inp
  | .scale e bits => Spec.number bits • e.meaning inp
  | .mul e bits => Spec.number bits • e.meaning inp

/-- The value in coordinates. -/
def Spec.Calc.compute (inp : ℕ → AffPoint F) : Spec.Calc → JacPoint F
  | .zero => .zero
  | .input i => (inp i).intoProjective
  | .neg e => (e.compute inp).neg
  | .negAffine e => (e.compute inp).intoAffine.neg.intoProjective
  | .add e e' => (e.compute inp).add (e'.compute inp)
  | .sub e e' => (e.compute inp).sub (e'.compute inp)
  | .mixed e e' => (e.compute inp).addMixed (e'.compute inp).intoAffine
  | .scale e bits => (e.compute inp).intoAffine.mulBits bits
  | .mul e bits => (e.compute inp).mulBits bits

/-- **C126**. Whatever is computed from inputs that denote points denotes the value in the group, in Jacobian and in affine
coordinates. -/
theorem C126 (h2 : (2 : F) ≠ 0) {b : F} {inp : ℕ → AffPoint F} {pts : ℕ → (swCurve 0 b).Point}
    (h : ∀ i, Spec.DenotesAff (inp i) (pts i)) (e : Spec.Calc) :
    Spec.Denotes (e.compute inp) (e.meaning pts) ∧ Spec.DenotesAff (e.compute inp).intoAffine (e.meaning pts) := by
  refine And.intro ?_ (denotes_intoAffine ?_) <;>
  · induction e with
    | zero => exact denotes_zero
    | input i => exact denotes_intoProjective (h i)
    | neg e ih => exact denotes_neg ih
    | negAffine e ih => exact denotes_intoProjective (denotesAff_neg (denotes_intoAffine ih))
    | add e e' ih ih' => exact denotes_add h2 ih ih'
    | sub e e' ih ih' =>
      rw [Spec.Calc.meaning, sub_eq_add_neg]
      exact denotes_add h2 ih (denotes_neg ih')
    | mixed e e' ih ih' => exact denotes_addMixed h2 ih (denotes_intoAffine ih')
    | scale e bits ih => exact denotes_affMul h2 (denotes_intoAffine ih) bits
    | mul e bits ih => exact denotes_mul h2 ih bits

/-- **C126** (tests). The tests made on coordinates decide equality of the points: `is_zero`, `==` on projective points, and the
comparison of all fields of affine points. -/
theorem C126_tests {b : F} {P P' : JacPoint F} {Q Q' : (swCurve 0 b).Point} (h : Spec.Denotes P Q) (h' : Spec.Denotes P' Q') :
    (P.isZero = true ↔ Q = 0) ∧ (P.eq P' = true ↔ Q = Q') ∧ (P.intoAffine = P'.intoAffine ↔ Q = Q') :=
  ⟨denotes_isZero h, denotes_eq h h', denotesAff_eq (denotes_intoAffine h) (denotes_intoAffine h')⟩

/-- **C126** (representation). Every point has affine coordinates, exactly one triple of them, and every triple of Jacobian
coordinates denotes at most one point. -/
theorem C126_repr {b : F} : (∀ Q : (swCurve 0 b).Point, ∃! A : AffPoint F, Spec.DenotesAff A Q) ∧
    (∀ (P : JacPoint F) (Q Q' : (swCurve 0 b).Point), Spec.Denotes P Q → Spec.Denotes P Q' → Q = Q') := by
  refine ⟨fun Q => ?_, fun P Q Q' h h' => ?_⟩
  · have hex : ∃ A : AffPoint F, Spec.DenotesAff A Q := by
      match Q with
      | .zero => exact ⟨_, .inl ⟨rfl, rfl⟩⟩
      | .some x y hxy => exact ⟨_, .inr ⟨x, y, hxy, rfl, rfl⟩⟩
    obtain ⟨A, hA⟩ := hex
    exact ⟨A, hA, fun A' hA' => (denotesAff_eq hA' hA).2 rfl⟩
  · exact (denotesAff_eq (denotes_intoAffine h) (denotes_intoAffine h')).1 rfl

/-- **C126** (many points). The batch normalization with a single inversion gives the same as `into_affine` for every point. -/
theorem C126_normalization {b : F} (l : List (JacPoint F)) (pts : List (swCurve 0 b).Point) (h : List.Forall₂ Spec.Denotes l pts) :
    batchNormalization l = l.map (·.intoAffine) ∧ List.Forall₂ Spec.DenotesAff (batchNormalization l) pts := by
  refine ⟨batchNormalization_eq l, ?_⟩
  rw [batchNormalization_eq]
  induction h with
  | nil => exact .nil
  | cons h _ ih => exact .cons (denotes_intoAffine h) ih

/-- **C126** (multi-scalar multiplication). The method of buckets gives the sum of the multiples and never panics. -/
theorem C126_msm {ε : Type} (h2 : (2 : F) ≠ 0) {b : F} {bits : ℕ} (hb : 0 < bits) {bases : List (AffPoint F)}
    {pts : List (swCurve 0 b).Point} (h : List.Forall₂ Spec.DenotesAff bases pts) {scalars : List ℕ}
    (hs : ∀ s ∈ scalars, s < 2 ^ bits) (hn : min bases.length scalars.length ≤ 2 ^ 64) :
    ∃ P, multiScalarMul (ε := ε) bits bases scalars = .ok P ∧
      Spec.Denotes P ((scalars.zip pts).map fun p => p.1 • p.2).sum :=
  multiScalarMul_spec h2 hb h hs hn

/-- **C126** (quadratic extension). Products, squares and inverses as computed for the second group are those of the field. -/
theorem C126_field (a b : BlsFq2) : fq2Mul a b = a * b ∧ fq2Square a = a * a ∧
    (a = 0 → fq2Inv a = none) ∧ (a ≠ 0 → fq2Inv a = some a⁻¹) := by
  refine ⟨?_, ?_, fun h => ?_, fun h => ?_⟩
  · ext
    · simp [fq2Mul]
    · simp [fq2Mul]; ring
  · ext
    · simp [fq2Square]; ring
    · simp [fq2Square]; ring
  · subst h
    exact if_pos ⟨rfl, rfl⟩
  · have h0 : ¬ (a.re = 0 ∧ a.im = 0) := fun h' => h (by ext; exacts [h'.1, h'.2])
    rw [fq2Inv, if_neg h0]
    have hn : a.re * a.re - -(a.im * a.im) ≠ 0 := by
      intro e
      by_cases hi : a.im = 0
      · rw [hi] at e
        exact h0 ⟨by simpa using e, hi⟩
      · refine (factNonsquare.out (a.re / a.im)) ?_
        rw [zero_mul, add_zero, div_pow, div_eq_iff (pow_ne_zero 2 hi)]
        linear_combination e
    refine congrArg some (eq_inv_of_mul_eq_one_right (a := a) ?_)
    ext
    · rw [show (1 : BlsFq2).re = 1 from rfl]
      simp only [QuadraticAlgebra.re_mul]
      refine Eq.trans ?_ (mul_inv_cancel₀ hn)
      ring
    · rw [show (1 : BlsFq2).im = 0 from rfl]
      simp only [QuadraticAlgebra.im_mul]
      ring

theorem two_ne_zero_fq : (2 : BlsFq) ≠ 0 := by
  rw [show (2 : BlsFq) = ((2 : ℕ) : BlsFq) by norm_num, Ne, ZMod.natCast_eq_zero_iff]
  decide +kernel

theorem two_ne_zero_fq2 : (2 : BlsFq2) ≠ 0 := by
  intro h
  apply two_ne_zero_fq
  rw [← one_add_one_eq_two] at h ⊢
  exact congrArg QuadraticAlgebra.re h

theorem blsR_bits : blsR < 2 ^ 255 := by decide +kernel

/-- Multi-scalar multiplication for a subgroup of order `r`. -/
theorem msm_torsion (h2 : (2 : F) ≠ 0) {b : F} (bases : List (AffPoint F)) (Ps : List (torsion blsR (swCurve 0 b).Point))
    (hb : List.Forall₂ (fun A P => Spec.DenotesAff A P.1) bases Ps) (ss : List (ZMod blsR)) (hn : ss.length ≤ 2 ^ 64) :
    ∃ J, multiScalarMul (ε := SignatureError) 255 bases (ss.map ZMod.val) = .ok J ∧
      Spec.Denotes J (((Ps.zip ss).map fun p => p.2 • p.1).sum : torsion blsR (swCurve 0 b).Point).1 := by
  have hb' : List.Forall₂ Spec.DenotesAff bases (Ps.map Subtype.val) := by
    induction hb with
    | nil => exact .nil
    | cons h _ ih => exact .cons h ih
  obtain ⟨J, h1, h3⟩ := multiScalarMul_spec (ε := SignatureError) h2 (bits := 255) (by decide) hb' (scalars := ss.map ZMod.val)
    (by
      intro s hs
      obtain ⟨x, -, rfl⟩ := List.mem_map.1 hs
      exact x.val_lt.trans blsR_bits)
    ((min_le_right _ _).trans (by rwa [List.length_map]))
  refine ⟨J, h1, ?_⟩
  convert h3 using 1
  clear h1 h3 hb hb' hn J
  induction Ps generalizing ss with
  | nil => cases ss <;> rfl
  | cons P Ps ih =>
    cases ss with
    | nil => rfl
    | cons s ss =>
      simp only [List.zip_cons_cons, List.map_cons, List.sum_cons, AddSubgroup.coe_add, ih ss]
      congr 1

/-- **C126** (BLS12-381). For both groups: multiplying the affine point by the 256 bits of `into_repr` gives the scalar multiple
of the module, and the multi-scalar multiplication is the sum of the scalar multiples, which is what the model of
`batch_verify` tests (`Schnorr.msm`). -/
theorem C126_bls :
    (∀ (A : AffPoint BlsFq) (P : BlsG1) (s : ZMod blsR), Spec.DenotesAff A P.1 →
      Spec.Denotes (A.mulBits (bitsBE (limbs 4 s.val))) (s • P).1) ∧
    (∀ (A : AffPoint BlsFq2) (P : BlsG2) (s : ZMod blsR), Spec.DenotesAff A P.1 →
      Spec.Denotes (A.mulBits (bitsBE (limbs 4 s.val))) (s • P).1) ∧
    (∀ (bases : List (AffPoint BlsFq)) (Ps : List BlsG1) (ss : List (ZMod blsR)),
      List.Forall₂ (fun A P => Spec.DenotesAff A P.1) bases Ps → ss.length ≤ 2 ^ 64 →
      ∃ J, multiScalarMul (ε := SignatureError) 255 bases (ss.map ZMod.val) = .ok J ∧
        (J.isZero = true ↔ ((Ps.zip ss).map fun p => p.2 • p.1).sum = 0) ∧ (J.isZero = true ↔ Schnorr.msm Ps ss = 0)) ∧
    (∀ (bases : List (AffPoint BlsFq2)) (Ps : List BlsG2) (ss : List (ZMod blsR)),
      List.Forall₂ (fun A P => Spec.DenotesAff A P.1) bases Ps → ss.length ≤ 2 ^ 64 →
      ∃ J, multiScalarMul (ε := SignatureError) 255 bases (ss.map ZMod.val) = .ok J ∧
        (J.isZero = true ↔ ((Ps.zip ss).map fun p => p.2 • p.1).sum = 0) ∧ (J.isZero = true ↔ Schnorr.msm Ps ss = 0)) := by
  have hval : ∀ s : ZMod blsR, s.val < 2 ^ (64 * 4) := fun s => s.val_lt.trans (blsR_bits.trans (by decide))
  have hm : ∀ {G : Type} [AddCommGroup G] [Module (ZMod blsR) G] (Ps : List G) (ss : List (ZMod blsR)),
      Schnorr.msm Ps ss = ((Ps.zip ss).map fun p => p.2 • p.1).sum := by
    intro G _ _ Ps ss
    rw [Schnorr.msm]
    congr 1
    exact List.map_congr_left fun p _ => mulRepr_eq_smul _ _
  refine ⟨fun A P s h => ?_, fun A P s h => ?_, fun bases Ps ss h hn => ?_, fun bases Ps ss h hn => ?_⟩
  · have := denotes_affMul two_ne_zero_fq h (bitsBE (limbs 4 s.val))
    rw [number_bitsBE (hval s)] at this
    rwa [← mulRepr_eq_smul]
  · have := denotes_affMul two_ne_zero_fq2 h (bitsBE (limbs 4 s.val))
    rw [number_bitsBE (hval s)] at this
    rwa [← mulRepr_eq_smul]
  · obtain ⟨J, h1, h3⟩ := msm_torsion two_ne_zero_fq bases Ps h ss hn
    refine ⟨J, h1, ?_⟩
    rw [hm, and_self_iff, denotes_isZero h3]
    exact ⟨fun e => Subtype.ext e, fun e => congrArg Subtype.val e⟩
  · obtain ⟨J, h1, h3⟩ := msm_torsion two_ne_zero_fq2 bases Ps h ss hn
    refine ⟨J, h1, ?_⟩
    rw [hm, and_self_iff, denotes_isZero h3]
    exact ⟨fun e => Subtype.ext e, fun e => congrArg Subtype.val e⟩

local instance fact13Proj : Fact (Nat.Prime 13) := ⟨by decide⟩

/-- Non-vacuity: on `y² = x³ + 2` modulo 13 the point `(1, 4)` denotes itself, its multiples by 5, 18 and 19 are `(5, 6)`, its
negative and infinity, and `5 P + 7 P + 14 P = 26 P = 7 P`. -/
example : (∃ h : (swCurve (0 : ZMod 13) 2).Nonsingular 1 4, Spec.DenotesAff (⟨1, 4, false⟩ : AffPoint (ZMod 13)) (.some 1 4 h)) ∧
    ((⟨1, 4, false⟩ : AffPoint (ZMod 13)).mulBits (bitsBE (limbs 1 5))).intoAffine = ⟨5, 6, false⟩ ∧
    ((⟨1, 4, false⟩ : AffPoint (ZMod 13)).mulBits (bitsBE (limbs 1 18))).intoAffine = ⟨1, 9, false⟩ ∧
    ((⟨1, 4, false⟩ : AffPoint (ZMod 13)).mulBits (bitsBE (limbs 1 19))).intoAffine = ⟨0, 1, true⟩ ∧
    (match multiScalarMul (ε := Unit) 5 [(⟨1, 4, false⟩ : AffPoint (ZMod 13)), ⟨1, 4, false⟩, ⟨1, 4, false⟩] [5, 7, 14] with
      | .ok J => decide (J.intoAffine = ⟨9, 4, false⟩) && decide (J.z ≠ 1)
      | _ => false) = true := by
  have h : (swCurve (0 : ZMod 13) 2).Nonsingular 1 4 := (sw_nonsingular (by decide)).2 (by decide)
  refine ⟨⟨h, .inr ⟨1, 4, h, rfl, rfl⟩⟩, by decide +kernel, by decide +kernel, by decide +kernel, by decide +kernel⟩

end Verif
