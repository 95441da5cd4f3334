import Verif.Lemmas.ArkLimb

/-!
# C129: from limbs to points
-/

namespace Verif

open WeierstrassCurve ArkFp
open Spec (value Limbs Canon residue)

/-- Computations in coordinates commute with maps of fields. -/
theorem Spec.Calc.map_compute {L F : Type} [Field L] [DecidableEq L] [Field F] [DecidableEq F] (φ : L →+* F) (inp : ℕ → AffPoint L)
    (e : Spec.Calc) : (e.compute inp).map φ = e.compute fun i => (inp i).map φ := by
  induction e with
  | zero => exact JacPoint.map_zero φ
  | input i => exact AffPoint.map_intoProjective φ _
  | neg e ih => rw [compute, compute, JacPoint.map_neg, ih]
  | negAffine e ih => rw [compute, compute, AffPoint.map_intoProjective, AffPoint.map_neg, JacPoint.map_intoAffine, ih]
  | add e e' ih ih' => rw [compute, compute, JacPoint.map_add, ih, ih']
  | sub e e' ih ih' => rw [compute, compute, JacPoint.map_sub, ih, ih']
  | mixed e e' ih ih' => rw [compute, compute, JacPoint.map_addMixed, JacPoint.map_intoAffine, ih, ih']
  | scale e bits ih => rw [compute, compute, AffPoint.map_mulBits, JacPoint.map_intoAffine, ih]
  | mul e bits ih => rw [compute, compute, JacPoint.map_mulBits, ih]

/-- **C129.** Let the elements of a field be stored in a type `L` whose operations are read correctly by `φ`.  Whatever is computed
with the formulas of C126 from stored affine points denotes the value in the group, and the tests on the stored results decide whether
the value is zero and whether two values are equal. -/
theorem C129 {L F : Type} [Field L] [DecidableEq L] [Field F] [DecidableEq F] (φ : L →+* F) (h2 : (2 : F) ≠ 0) {b : F}
    {inp : ℕ → AffPoint L} {pts : ℕ → (swCurve 0 b).Point} (h : ∀ i, Spec.DenotesAff ((inp i).map φ) (pts i)) (e e' : Spec.Calc) :
    Spec.Denotes ((e.compute inp).map φ) (e.meaning pts) ∧ Spec.DenotesAff ((e.compute inp).intoAffine.map φ) (e.meaning pts) ∧
    ((e.compute inp).isZero = true ↔ e.meaning pts = 0) ∧
    ((e.compute inp).eq (e'.compute inp) = true ↔ e.meaning pts = e'.meaning pts) ∧
    ((e.compute inp).intoAffine = (e'.compute inp).intoAffine ↔ e.meaning pts = e'.meaning pts) := by
  obtain ⟨h1, h3⟩ := C126 h2 h e
  obtain ⟨h4, h5, h6⟩ := C126_tests h1 (C126 h2 h e').1
  rw [← Spec.Calc.map_compute] at h1 h3
  rw [← Spec.Calc.map_compute, ← Spec.Calc.map_compute] at h5 h6
  rw [← Spec.Calc.map_compute] at h4
  refine ⟨h1, ?_, ?_, ?_, ?_⟩
  · rw [JacPoint.map_intoAffine]
    exact h3
  · rwa [JacPoint.map_isZero] at h4
  · rwa [JacPoint.map_eq] at h5
  · rwa [← JacPoint.map_intoAffine, ← JacPoint.map_intoAffine, AffPoint.map_inj] at h6

/-- **C129** (storage). Elements of the prime fields of BLS12-381 are canonical limbs, one list of limbs for every residue, and the
operations are those of C128 on limbs; `2 a` and `a²`, which the formulas compute with `double_in_place` and `square_in_place`, are
what these give.  Elements of the quadratic extension are pairs, with Karatsuba's product, the product of conjugates for the inverse
and the square as in ark-ff, one pair for every element. -/
theorem C129_storage {P : Params} {p n : ℕ} [Fact p.Prime] {hP : Spec.FpFor P p n} :
    (Function.Bijective (LimbFp.resHom : LimbFp hP →+* ZMod p) ∧
    ∀ a b : LimbFp hP,
      LimbFp.resHom a = residue p n a.limbs ∧ (a + b).limbs = ArkFp.add P a.limbs b.limbs ∧ (a - b).limbs = ArkFp.sub P a.limbs b.limbs ∧
      (a * b).limbs = ArkFp.mul P a.limbs b.limbs ∧ (-a).limbs = ArkFp.neg P a.limbs ∧
      (2 * a).limbs = ArkFp.double P a.limbs ∧ (a * a).limbs = ArkFp.square P a.limbs ∧
      (a = 0 → ArkFp.inverse P a.limbs = none) ∧ (a ≠ 0 → ArkFp.inverse P a.limbs = some a⁻¹.limbs)) ∧
    (Function.Bijective (Fq2L.resHom : Fq2L →+* BlsFq2) ∧
    ∀ a b : Fq2L,
      Fq2L.resHom a = ⟨LimbFp.resHom a.c0, LimbFp.resHom a.c1⟩ ∧ a + b = ⟨a.c0 + b.c0, a.c1 + b.c1⟩ ∧
      a - b = ⟨a.c0 - b.c0, a.c1 - b.c1⟩ ∧ -a = ⟨-a.c0, -a.c1⟩ ∧ 2 * a = ⟨2 * a.c0, 2 * a.c1⟩ ∧ a * a = a.square ∧
      a * b = ⟨a.c0 * b.c0 + -(a.c1 * b.c1), (a.c1 + a.c0) * (b.c0 + b.c1) - a.c0 * b.c0 - a.c1 * b.c1⟩ ∧
      a⁻¹ = ⟨a.c0 * (a.c0 * a.c0 - -(a.c1 * a.c1))⁻¹, -(a.c1 * (a.c0 * a.c0 - -(a.c1 * a.c1))⁻¹)⟩) := by
  have surj : ∀ {P : Params} {p n : ℕ} [Fact p.Prime] {hP : Spec.FpFor P p n} (z : ZMod p), ∃ a : LimbFp hP, a.res = z := by
    intro P p n _ hP z
    obtain ⟨l, ⟨h1, h2⟩, -⟩ := (C128 hP).2.2.1 z
    exact ⟨⟨l, h1⟩, h2⟩
  refine ⟨⟨⟨fun a b h => LimbFp.res_inj h, surj⟩, fun a b => ⟨rfl, rfl, rfl, rfl, rfl, ?_, ?_, fun h => ?_, fun h => ?_⟩⟩,
    ⟨fun a b h => Fq2L.res_inj h, fun z => ?_⟩, fun a b => ⟨rfl, rfl, rfl, rfl, ?_, ?_, rfl, rfl⟩⟩
  · obtain ⟨h1, h2⟩ := ((C128 hP).2.1 _ a.canon).2.1
    refine congrArg LimbFp.limbs (LimbFp.res_inj (a := 2 * a) (b := ⟨_, h1⟩) ?_)
    rw [two_mul, LimbFp.res_add, ← two_mul]
    exact h2.symm
  · obtain ⟨h1, h2⟩ := ((C128 hP).2.1 _ a.canon).2.2.1
    refine congrArg LimbFp.limbs (LimbFp.res_inj (a := a * a) (b := ⟨_, h1⟩) ?_)
    rw [LimbFp.res_mul, ← pow_two]
    exact h2.symm
  · exact ((C128 hP).2.1 _ a.canon).2.2.2.1 (by rw [h]; exact LimbFp.res_zero)
  · obtain ⟨y, h1, -, -⟩ := ((C128 hP).2.1 _ a.canon).2.2.2.2.1 fun h0 => h (LimbFp.res_inj (h0.trans LimbFp.res_zero.symm))
    rw [LimbFp.inv_of_some h1, h1]
  · obtain ⟨x, hx⟩ := surj (hP := C128_bls.2) z.re
    obtain ⟨y, hy⟩ := surj (hP := C128_bls.2) z.im
    exact ⟨⟨x, y⟩, by ext; exacts [hx, hy]⟩
  · rw [two_mul, two_mul, two_mul]
    rfl
  · exact Fq2L.res_inj (by rw [Fq2L.res_square, Fq2L.res_mul])

/-- `into_repr` of a stored scalar is the list of limbs that the model of C126 multiplies with. -/
theorem intoRepr_limbs (s : FrL) : intoRepr fr s.limbs = limbs 4 s.res.val ∧ value (intoRepr fr s.limbs) = s.res.val := by
  obtain ⟨h1, h2⟩ := ((C128 C128_bls.1).2.1 _ s.canon).2.2.2.2.2
  refine ⟨?_, h2⟩
  have key : ∀ (k m : ℕ) (l : List ℕ), Limbs k l → value l = m → l = limbs k m := by
    intro k
    induction k with
    | zero => exact fun m l hl _ => by rw [hl.eq_nil]; rfl
    | succ k ih =>
      intro m l hl hv
      obtain ⟨a, l, rfl, ha, hl⟩ := hl.exists_cons
      rw [value] at hv
      rw [ih (m / 2 ^ 64) l hl (by omega)]
      unfold limbs
      rw [List.range_succ_eq_map, List.map_cons, List.map_map]
      congr 1
      · simp only [mul_zero, pow_zero, Nat.div_one]
        omega
      · apply List.map_congr_left
        intro i _
        simp only [Function.comp]
        rw [Nat.div_div_eq_div_mul, ← pow_add, show 64 + 64 * i = 64 * i.succ by rw [Nat.succ_eq_add_one]; ring]
  exact key 4 _ _ h1 h2

theorem resHom_apply {P : Params} {p n : ℕ} [Fact p.Prime] {hP : Spec.FpFor P p n} (a : LimbFp hP) : LimbFp.resHom a = a.res := rfl

/-- **C129** (BLS12-381). Stored points times stored scalars, with all operations on limbs: `mul` by `into_repr` denotes the scalar
multiple in both groups, and the multi-scalar multiplication of `batch_verify` ends without panic in a point that is zero exactly if
the sum of the multiples is zero. -/
theorem C129_bls :
    (∀ (A : AffPoint FqL) (P : BlsG1) (s : FrL), Spec.DenotesAff (A.map LimbFp.resHom) P.1 →
      Spec.Denotes ((A.mulBits (bitsBE (intoRepr fr s.limbs))).map LimbFp.resHom) (LimbFp.resHom s • P).1) ∧
    (∀ (A : AffPoint Fq2L) (P : BlsG2) (s : FrL), Spec.DenotesAff (A.map Fq2L.resHom) P.1 →
      Spec.Denotes ((A.mulBits (bitsBE (intoRepr fr s.limbs))).map Fq2L.resHom) (LimbFp.resHom s • P).1) ∧
    (∀ (bases : List (AffPoint FqL)) (Ps : List BlsG1) (ss : List FrL),
      List.Forall₂ (fun A P => Spec.DenotesAff (A.map LimbFp.resHom) P.1) bases Ps → ss.length ≤ 2 ^ 64 →
      ∃ J, multiScalarMul (ε := SignatureError) 255 bases (ss.map fun s => value (intoRepr fr s.limbs)) = .ok J ∧
        (J.isZero = true ↔ ((Ps.zip ss).map fun p => LimbFp.resHom p.2 • p.1).sum = 0)) ∧
    (∀ (bases : List (AffPoint Fq2L)) (Ps : List BlsG2) (ss : List FrL),
      List.Forall₂ (fun A P => Spec.DenotesAff (A.map Fq2L.resHom) P.1) bases Ps → ss.length ≤ 2 ^ 64 →
      ∃ J, multiScalarMul (ε := SignatureError) 255 bases (ss.map fun s => value (intoRepr fr s.limbs)) = .ok J ∧
        (J.isZero = true ↔ ((Ps.zip ss).map fun p => LimbFp.resHom p.2 • p.1).sum = 0)) := by
  obtain ⟨g1, g2, m1, m2⟩ := C126_bls
  have hss : ∀ ss : List FrL, (ss.map fun s => value (intoRepr fr s.limbs)) = (ss.map LimbFp.resHom).map ZMod.val := by
    intro ss
    rw [List.map_map]
    refine List.map_congr_left fun s _ => ?_
    rw [Function.comp_apply, resHom_apply, (intoRepr_limbs s).2]
  have hzip : ∀ {G : Type} [AddCommGroup G] [Module (ZMod blsR) G] (Ps : List G) (ss : List FrL),
      ((Ps.zip (ss.map LimbFp.resHom)).map fun p => p.2 • p.1) = (Ps.zip ss).map fun p => LimbFp.resHom p.2 • p.1 := by
    intro G _ _ Ps ss
    rw [List.zip_map_right, List.map_map]
    rfl
  refine ⟨fun A P s h => ?_, fun A P s h => ?_, fun bases Ps ss h hn => ?_, fun bases Ps ss h hn => ?_⟩
  · rw [AffPoint.map_mulBits, (intoRepr_limbs s).1]
    rw [resHom_apply]
    exact g1 _ P _ h
  · rw [AffPoint.map_mulBits, (intoRepr_limbs s).1]
    rw [resHom_apply]
    exact g2 _ P _ h
  · obtain ⟨J, h1, h3, -⟩ := m1 (bases.map (·.map LimbFp.resHom)) Ps (ss.map LimbFp.resHom)
      (by rw [List.forall₂_map_left_iff]; exact h) (by rw [List.length_map]; exact hn)
    rw [map_multiScalarMul, ← hss] at h1
    obtain ⟨J', e1, e2⟩ := Res.bind_eq_ok.mp h1
    cases e2
    rw [JacPoint.map_isZero, hzip] at h3
    exact ⟨J', e1, h3⟩
  · obtain ⟨J, h1, h3, -⟩ := m2 (bases.map (·.map Fq2L.resHom)) Ps (ss.map LimbFp.resHom)
      (by rw [List.forall₂_map_left_iff]; exact h) (by rw [List.length_map]; exact hn)
    rw [map_multiScalarMul, ← hss] at h1
    obtain ⟨J', e1, e2⟩ := Res.bind_eq_ok.mp h1
    cases e2
    rw [JacPoint.map_isZero, hzip] at h3
    exact ⟨J', e1, h3⟩

/-- The generator of G1 in limbs. -/
def Toy.genLimbs : AffPoint FqL where
  x := ⟨(fromRepr fq (limbs 6 blsG1x)).getD [], by unfold Canon Limbs; decide +kernel⟩
  y := ⟨(fromRepr fq (limbs 6 blsG1y)).getD [], by unfold Canon Limbs; decide +kernel⟩
  infinity := false

example : Toy.genLimbs.x.limbs = [0x5cb38790fd530c16, 0x7817fc679976fff5, 0x154f95c7143ba1c1, 0xf0ae6acdf3d0e747, 0xedce6ecc21dbf440,
    0x120177419e0bfb75] := by decide +kernel

example : (Toy.genLimbs.intoProjective.add Toy.genLimbs.intoProjective).isZero = false ∧
    (Toy.genLimbs.intoProjective.double).eq (Toy.genLimbs.mulBits (bitsBE [2, 0, 0, 0])) = true := by decide +kernel

/-- These limbs denote the generator, so that C129 applies to them. -/
theorem Toy.genLimbs_denotes : Spec.DenotesAff (Toy.genLimbs.map LimbFp.resHom) blsG1.1 := by
  have key : ∀ m : ℕ, m < blsP → value (limbs 6 m) = m → Limbs 6 (limbs 6 m) →
      residue blsP 6 ((fromRepr fq (limbs 6 m)).getD []) = (m : ℕ) := by
    intro m h1 h2 h3
    obtain ⟨y, e, -, h⟩ := (fromRepr_spec C128_bls.2 h3).1 (by rw [h2]; exact h1)
    rw [e, Option.getD_some, h, h2]
  refine .inr ⟨_, _, g1_on_curve, rfl, ?_⟩
  unfold AffPoint.map
  congr 1
  · rw [resHom_apply]
    exact key blsG1x (by decide +kernel) (by decide +kernel) (by unfold Limbs; decide +kernel)
  · rw [resHom_apply]
    exact key blsG1y (by decide +kernel) (by decide +kernel) (by unfold Limbs; decide +kernel)

example (s : FrL) : Spec.Denotes ((Toy.genLimbs.mulBits (bitsBE (intoRepr fr s.limbs))).map LimbFp.resHom) (LimbFp.resHom s • blsG1).1 :=
  C129_bls.1 _ _ s Toy.genLimbs_denotes

end Verif
