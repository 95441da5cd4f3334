import Verif.Lemmas.Uniform
import Verif.Props.HashGroup

/-!
# Random scalars and points at BLS12-381 (C103)

The other theorems speak of the scalars a generator draws, and of any points as reference string.  Here the words of the generator are
uniform, and the laws of what `rand` returns are computed: scalars are uniform and independent; points are uniform in the group of
order `r` up to a negligible excess of non-zero ones.
-/

open scoped ENNReal
open Finset

namespace Verif

open WeierstrassCurve Sampler

/-! ### field elements -/

/-- What a round of `fpRand` returns. -/
def fpRound (p n bits v : ℕ) : Option (ZMod p) :=
  if v % 2 ^ bits < p then some ((v % 2 ^ bits : ℕ) * ((2 ^ (32 * n) : ℕ) : ZMod p)⁻¹) else none

theorem fpRound_iff {p n bits v : ℕ} [Fact p.Prime] (hp : p ≠ 2) (x : ZMod p) :
    fpRound p n bits v = some x ↔ v % 2 ^ bits = (x * ((2 ^ (32 * n) : ℕ) : ZMod p)).val := by
  have hu : ((2 ^ (32 * n) : ℕ) : ZMod p) ≠ 0 := by
    rw [Ne, ZMod.natCast_eq_zero_iff]
    intro h
    exact hp ((Nat.prime_dvd_prime_iff_eq Fact.out Nat.prime_two).1 (Nat.Prime.dvd_of_dvd_pow Fact.out h))
  unfold fpRound
  generalize v % 2 ^ bits = w
  constructor
  · intro h
    split at h
    · rename_i hw
      rw [← Option.some.inj h, mul_assoc, inv_mul_cancel₀ hu, mul_one, ZMod.val_natCast_of_lt hw]
    · cases h
  · intro h
    rw [h, if_pos (ZMod.val_lt _), ZMod.natCast_zmod_val, mul_assoc, mul_inv_cancel₀ hu, mul_one]

theorem fpRand_law {p n bits : ℕ} [Fact p.Prime] (hp : p ≠ 2) (hb : bits ≤ 32 * n) (hpb : p ≤ 2 ^ bits) :
    Det (fpRand p n bits) ∧ Total (fpRand p n bits) ∧ ∀ x, prob (fpRand p n bits) x = (p : ℝ≥0∞)⁻¹ := by
  classical
  let R : Sampler (Option (ZMod p)) := Sampler.block n fun l => fpRound p n bits (wordVal l)
  have hR : fpRand p n bits = Sampler.loop R := rfl
  have hd : Det R := det_block _ _
  have ht : Total R := total_block n (fpRound p n bits)
  have hc : ∀ x, prob R (some x) = (2 ^ (32 * n - bits) : ℕ) * ((2 : ℝ≥0∞) ^ (32 * n))⁻¹ := by
    intro x
    have h := prob_block n (fpRound p n bits) (some x)
    rw [show prob R (some x) = _ from h]
    congr 2
    refine Eq.trans (congrArg card (filter_congr fun v _ => fpRound_iff hp x)) ?_
    exact card_mod _ (2 ^ bits) _ _ (by rw [← pow_add, Nat.add_sub_cancel' hb]) ((ZMod.val_lt _).trans_le hpb)
  have hc0 : ((2 ^ (32 * n - bits) : ℕ) * ((2 : ℝ≥0∞) ^ (32 * n))⁻¹ : ℝ≥0∞) ≠ 0 := by
    simp
  have key : ∀ x, prob (fpRand p n bits) x = (p : ℝ≥0∞)⁻¹ := by
    intro x
    rw [hR, prob_loop_uniform hd ht (s := univ) (fun a _ => hc a) (fun a ha => absurd (mem_univ a) ha) hc0 univ_nonempty,
      if_pos (mem_univ x), card_univ, ZMod.card]
  refine ⟨det_loop hd, ?_, key⟩
  unfold Sampler.Total
  rw [tsum_congr key, tsum_fintype, sum_const, card_univ, ZMod.card, nsmul_eq_mul]
  exact ENNReal.mul_inv_cancel (by simpa using (Fact.out : p.Prime).ne_zero) (ENNReal.natCast_ne_top p)

theorem fqRand_law : Det fqRand ∧ Total fqRand ∧ ∀ x, prob fqRand x = (blsP : ℝ≥0∞)⁻¹ :=
  fpRand_law (by decide +kernel) (by norm_num) (by decide +kernel)

/-- **C103** (scalars). `Scalar::rand` reads one sequence of words from every tape, ends with probability one, and returns every
scalar with probability `1 / r`. -/
theorem C103_scalar : Det frRand ∧ Total frRand ∧ ∀ x, prob frRand x = (blsR : ℝ≥0∞)⁻¹ :=
  fpRand_law (by decide +kernel) (by norm_num) (by decide +kernel)

theorem times_law {α : Type} [DecidableEq α] {R : Sampler α} (hd : Det R) (n : ℕ) :
    Det (times R n) ∧ ∀ xs, prob (times R n) xs = if xs.length = n then (xs.map (prob R)).prod else 0 := by
  induction n with
  | zero =>
    refine ⟨det_ret _, fun xs => ?_⟩
    rw [times, prob_ret]
    cases xs <;> simp
  | succ n ih =>
    refine ⟨det_bind hd fun a => det_bind ih.1 fun as => det_ret _, fun xs => ?_⟩
    rw [times, prob_bind hd]
    simp only [prob_bind ih.1, prob_ret]
    cases xs with
    | nil => simp
    | cons x xs =>
      rw [tsum_eq_single x, tsum_eq_single xs]
      · rw [if_pos rfl, mul_one, ih.2]
        simp only [List.length_cons, Nat.add_right_cancel_iff, List.map_cons, List.prod_cons]
        split <;> simp
      · intro as has
        rw [if_neg (fun h => has (List.cons.inj h).2), mul_zero]
      · intro a ha
        rw [ENNReal.tsum_eq_zero.2 (fun as => by rw [if_neg (fun h => ha (List.cons.inj h).1), mul_zero]), mul_zero]

/-- **C103** (independence). The first `n` scalars drawn take every value in `(Z/r)^n` with the same probability `r^(-n)`. -/
theorem C103_draws (n : ℕ) (xs : List (ZMod blsR)) :
    prob (times frRand n) xs = if xs.length = n then ((blsR : ℝ≥0∞) ^ n)⁻¹ else 0 := by
  rw [(times_law C103_scalar.1 n).2]
  split
  · rename_i h
    rw [List.map_congr_left fun x _ => C103_scalar.2.2 x, List.map_const', List.prod_replicate, h, ENNReal.inv_pow]
  · rfl

theorem fq2Rand_law : Det fq2Rand ∧ Total fq2Rand ∧ ∀ x, prob fq2Rand x = ((blsP : ℝ≥0∞) ^ 2)⁻¹ := by
  obtain ⟨hd, ht, hp⟩ := fqRand_law
  refine ⟨det_bind hd fun _ => det_bind hd fun _ => det_ret _, total_bind hd ht fun _ => total_bind hd ht fun _ => total_ret _,
    fun x => ?_⟩
  rw [fq2Rand, prob_bind hd]
  simp only [prob_bind hd, prob_ret]
  rw [tsum_eq_single x.re, tsum_eq_single x.im]
  · rw [if_pos rfl, hp, hp, mul_one, ENNReal.inv_pow, pow_two]
  · intro b hb
    rw [if_neg (fun h => hb (congrArg QuadraticAlgebra.im h)), mul_zero]
  · intro a ha
    rw [ENNReal.tsum_eq_zero.2 (fun b => by rw [if_neg (fun h => ha (congrArg QuadraticAlgebra.re h)), mul_zero]), mul_zero]

/-! ### points -/

theorem card_half (N M : ℕ) (hN : N = 2 * M) (b : Bool) : (univ.filter fun v : Fin N => decide (M ≤ v.1) = b).card = M := by
  have h1 : (univ.filter fun v : Fin N => ¬ M ≤ v.1).card = M := by
    have e := Fin.card_filter_val_lt (n := N) (m := M)
    rw [min_eq_right (by omega)] at e
    simpa only [not_le] using e
  have h2 := card_filter_add_card_filter_not (s := (univ : Finset (Fin N))) (p := fun v => M ≤ v.1)
  rw [h1, card_univ, Fintype.card_fin] at h2
  cases b
  · simpa only [decide_eq_false_iff_not] using h1
  · simp only [decide_eq_true_eq]
    omega

theorem half_law (M : ℕ) (hM : 2 ^ (32 * 1) = 2 * M) (b : Bool) :
    prob (Sampler.block 1 fun l => decide (M ≤ wordVal l)) b = 2⁻¹ := by
  have h := prob_block 1 (fun v => decide (M ≤ v)) b
  have hM0 : (M : ℝ≥0∞) ≠ 0 := by
    rw [Ne, Nat.cast_eq_zero]
    rintro rfl
    have : 0 < 2 ^ (32 * 1) := Nat.pos_of_ne_zero (pow_ne_zero _ two_ne_zero)
    omega
  rw [h, card_half _ M hM, show (2 : ℝ≥0∞) ^ (32 * 1) = M * 2 by
    have := congrArg (Nat.cast (R := ℝ≥0∞)) hM
    rw [Nat.cast_pow, Nat.cast_mul, Nat.cast_ofNat, mul_comm (2 : ℝ≥0∞)] at this
    exact this, ENNReal.mul_inv (.inl hM0) (.inl (ENNReal.natCast_ne_top M)),
    ← mul_assoc, ENNReal.mul_inv_cancel hM0 (ENNReal.natCast_ne_top M), one_mul]

theorem boolRand_law : Det boolRand ∧ Total boolRand ∧ ∀ b, prob boolRand b = 2⁻¹ :=
  ⟨det_block _ _, total_block 1 fun v => decide (2 ^ 31 ≤ v), half_law (2 ^ 31) (by norm_num)⟩

section
variable {F : Type} [Field F] [DecidableEq F]

open Classical in
/-- The sign of a point. -/
noncomputable def pointSign (lt : F → F → Prop) (y : F) : Bool := decide (lt (-y) y)

omit [DecidableEq F] in
/-- A point is obtained exactly from its coordinate and its sign, on a curve without points of order two. -/
theorem pointFromX_iff {lt : F → F → Prop} {a b : F}
    (hasymm : ∀ y z : F, lt y z → ¬ lt z y) (htotal : ∀ y : F, y ≠ -y → lt y (-y) ∨ lt (-y) y)
    (hns : ∀ x y, y ^ 2 = x ^ 3 + a * x + b → (swCurve a b).Nonsingular x y ∧ y ≠ -y)
    (x : F) (g : Bool) (u v : F) (h : (swCurve a b).Nonsingular u v) :
    pointFromX lt a b x g = some (.some u v h) ↔ x = u ∧ g = pointSign lt v := by
  classical
  unfold pointFromX
  by_cases hs : ∃ y, y ^ 2 = x ^ 3 + a * x + b
  · rw [dif_pos hs]
    have h0 := (hns _ _ hs.choose_spec).2
    have hp := pick_iff hasymm htotal h0 (g = true) inferInstance
    have hsq : (if Xor (lt hs.choose (-hs.choose)) (g = true) then hs.choose else -hs.choose) ^ 2 = x ^ 3 + a * x + b := by
      split
      · exact hs.choose_spec
      · rw [neg_sq]; exact hs.choose_spec
    have key : ∀ z (_ : lt (-z) z ↔ g = true) (_ : z ^ 2 = x ^ 3 + a * x + b),
        ((if h : (swCurve a b).Nonsingular x z then some (Affine.Point.some x z h) else none) = some (.some u v h) ↔
          x = u ∧ g = pointSign lt v) := by
      intro z hz hz2
      rw [dif_pos (hns _ _ hz2).1]
      simp only [Option.some.injEq, Affine.Point.some.injEq, pointSign]
      constructor
      · rintro ⟨rfl, rfl⟩
        refine ⟨rfl, ?_⟩
        cases g <;> simp_all
      · rintro ⟨rfl, e⟩
        refine ⟨rfl, ?_⟩
        have hv := sw_equation.1 h.1
        have hne := (hns _ _ hv).2
        rcases sq_eq_sq_iff_eq_or_eq_neg.1 (hz2.trans hv.symm) with h3 | h3
        · exact h3
        · exfalso
          rw [h3, neg_neg] at hz
          by_cases hl : lt (-v) v
          · exact hasymm _ _ hl (hz.2 (by rw [e]; simpa using hl))
          · have := hz.1 ((htotal _ hne).resolve_right hl)
            rw [e] at this
            exact hl (by simpa using this)
    exact key _ hp hsq
  · rw [dif_neg hs]
    refine ⟨fun e => (by cases e), ?_⟩
    rintro ⟨rfl, -⟩
    exact absurd ⟨v, sw_equation.1 h.1⟩ hs

omit [DecidableEq F] in
theorem pointFromX_ne_zero {lt : F → F → Prop} {a b : F} (x : F) (g : Bool) :
    pointFromX lt a b x g ≠ some (0 : (swCurve a b).Point) := by
  classical
  unfold pointFromX
  split
  · simp only
    intro h
    have key : ∀ z, (if h : (swCurve a b).Nonsingular x z then some (Affine.Point.some x z h) else none) ≠
        some (0 : (swCurve a b).Point) := by
      intro z h
      split at h
      · exact absurd (Option.some.inj h) (Affine.Point.some_ne_zero _)
      · cases h
    exact key _ h
  · intro h; cases h

open Classical in
/-- The law of a random point, before and after the multiplication with the cofactor. -/
theorem groupRand_law {lt : F → F → Prop} {a b : F} {h q N : ℕ} {fRand : Sampler F} (hd : Det fRand) (ht : Total fRand)
    (hp : ∀ x, prob fRand x = (N : ℝ≥0∞)⁻¹)
    (hasymm : ∀ y z : F, lt y z → ¬ lt z y) (htotal : ∀ y : F, y ≠ -y → lt y (-y) ∨ lt (-y) y)
    (hns : ∀ x y, y ^ 2 = x ^ 3 + a * x + b → (swCurve a b).Nonsingular x y ∧ y ≠ -y)
    [Finite (swCurve a b).Point] (hq : q.Prime) (hcard : Nat.card (swCurve a b).Point = h * q)
    (htor : Nat.card (torsion q (swCurve a b).Point) = q) (hco : h.Coprime q) (h0 : h ≠ 0) :
    Det (groupRand fRand lt a b h) ∧ Total (groupRand fRand lt a b h) ∧
    prob (groupRand fRand lt a b h) 0 = ((h - 1 : ℕ) : ℝ≥0∞) / (h * q - 1 : ℕ) ∧
    (∀ P ∈ torsion q (swCurve a b).Point, P ≠ 0 → prob (groupRand fRand lt a b h) P = (h : ℝ≥0∞) / (h * q - 1 : ℕ)) ∧
    ∀ P ∉ torsion q (swCurve a b).Point, prob (groupRand fRand lt a b h) P = 0 := by
  have := Fintype.ofFinite (swCurve a b).Point
  let R : Sampler (Option (swCurve a b).Point) :=
    .bind fRand fun x => .bind boolRand fun greatest => .ret (pointFromX lt a b x greatest)
  obtain ⟨bd, bt, bp⟩ := boolRand_law
  have hR : Det R := det_bind hd fun _ => det_bind bd fun _ => det_ret _
  have tR : Total R := total_bind hd ht fun _ => total_bind bd bt fun _ => total_ret _
  have hcq : 1 < h * q := lt_of_lt_of_le hq.one_lt (Nat.le_mul_of_pos_left q (Nat.pos_of_ne_zero h0))
  have hbody : ∀ o, prob R o = ∑' x, (N : ℝ≥0∞)⁻¹ * ∑' g : Bool, 2⁻¹ * if pointFromX lt a b x g = o then 1 else 0 := by
    intro o
    simp only [R]
    rw [prob_bind hd]
    refine tsum_congr fun x => ?_
    rw [prob_bind bd, hp]
    congr 1
    refine tsum_congr fun g => ?_
    rw [bp, prob_ret]
  have hsome : ∀ P ∈ univ.filter fun P : (swCurve a b).Point => P ≠ 0, prob R (some P) = (N : ℝ≥0∞)⁻¹ * 2⁻¹ := by
    intro P hP
    cases P with
    | zero => exact absurd rfl (mem_filter.1 hP).2
    | some u v hn =>
      rw [hbody, tsum_eq_single u, tsum_eq_single (pointSign lt v)]
      · rw [if_pos ((pointFromX_iff hasymm htotal hns u _ u v hn).2 ⟨rfl, rfl⟩), mul_one]
      · intro g hg
        rw [if_neg (fun e => hg ((pointFromX_iff hasymm htotal hns u g u v hn).1 e).2), mul_zero]
      · intro x hx
        rw [ENNReal.tsum_eq_zero.2 (fun g => by
          rw [if_neg (fun e => hx ((pointFromX_iff hasymm htotal hns x g u v hn).1 e).1), mul_zero]), mul_zero]
  have hzero : ∀ P ∉ univ.filter fun P : (swCurve a b).Point => P ≠ 0, prob R (some P) = 0 := by
    intro P hP
    have hP : P = 0 := by simpa using hP
    rw [hbody, hP]
    refine ENNReal.tsum_eq_zero.2 fun x => ?_
    rw [ENNReal.tsum_eq_zero.2 (fun g => by rw [if_neg (pointFromX_ne_zero x g), mul_zero]), mul_zero]
  have hE : (univ : Finset (swCurve a b).Point).card = h * q := by rw [card_univ, ← Nat.card_eq_fintype_card, hcard]
  have hs : (univ.filter fun P : (swCurve a b).Point => P ≠ 0).card = h * q - 1 := by
    rw [filter_ne', card_erase_of_mem (mem_univ _), hE]
  have hne : (univ.filter fun P : (swCurve a b).Point => P ≠ 0).Nonempty := card_pos.1 (by rw [hs]; omega)
  have hloop : ∀ P, prob (Sampler.loop R) P = if P ≠ 0 then ((h * q - 1 : ℕ) : ℝ≥0∞)⁻¹ else 0 := by
    intro P
    rw [prob_loop_uniform hR tR hsome hzero (by simp) hne P, hs]
    simp only [mem_filter, mem_univ, true_and]
  have hdl := det_loop hR
  have htl : Total (Sampler.loop R) := by
    refine total_loop hR tR fun h1 => ?_
    obtain ⟨P, hP⟩ := hne
    have h2 := tR
    unfold Sampler.Total at h2
    rw [tsum_fintype, Fintype.sum_option, h1] at h2
    have h3 : ∑ P, prob R (some P) = 0 := by
      have h4 : (1 : ℝ≥0∞) + ∑ P, prob R (some P) = 1 + 0 := by rw [h2, add_zero]
      exact (ENNReal.add_right_inj ENNReal.one_ne_top).1 h4
    have h5 := (Finset.sum_eq_zero_iff.1 h3) P (mem_univ P)
    rw [hsome P hP] at h5
    simp at h5
  refine ⟨det_bind hdl fun _ => det_ret _, total_bind hdl htl fun _ => total_ret _, ?_⟩
  have hprob : ∀ P, prob (groupRand fRand lt a b h) P =
      (univ.filter fun Q : (swCurve a b).Point => Q ≠ 0 ∧ h • Q = P).card * ((h * q - 1 : ℕ) : ℝ≥0∞)⁻¹ := by
    intro P
    rw [groupRand, prob_bind hdl, tsum_fintype]
    simp only [prob_ret]
    rw [← nsmul_eq_mul, ← sum_const, sum_filter]
    refine sum_congr rfl fun Q _ => ?_
    rw [hloop]
    by_cases h1 : Q ≠ 0 <;> by_cases h2 : h • Q = P <;> simp [h1, h2]
  have hfib : ∀ P : (swCurve a b).Point, q • P = 0 → (univ.filter fun Q : (swCurve a b).Point => h • Q = P).card = h := by
    intro P hP
    have := card_cofactor_fibre hq hcard htor hco hP
    rwa [Nat.card_eq_fintype_card, Fintype.card_subtype] at this
  have hprob : ∀ P, prob (groupRand fRand lt a b h) P =
      (univ.filter fun Q : (swCurve a b).Point => Q ≠ 0 ∧ h • Q = P).card / ((h * q - 1 : ℕ) : ℝ≥0∞) := by
    intro P
    rw [hprob, div_eq_mul_inv]
  refine ⟨?_, fun P hPq hP0 => ?_, fun P hPq => ?_⟩
  · rw [hprob]
    congr 2
    have e : (univ.filter fun Q : (swCurve a b).Point => Q ≠ 0 ∧ h • Q = 0) =
        (univ.filter fun Q : (swCurve a b).Point => h • Q = 0).erase 0 := by
      ext Q; simp
    rw [e, card_erase_of_mem (by simp), hfib 0 (smul_zero _)]
  · rw [hprob]
    have e : (univ.filter fun Q : (swCurve a b).Point => Q ≠ 0 ∧ h • Q = P) =
        univ.filter fun Q : (swCurve a b).Point => h • Q = P := by
      ext Q
      simp only [mem_filter, mem_univ, true_and, and_iff_right_iff_imp]
      rintro rfl rfl
      exact hP0 (smul_zero h)
    rw [e, hfib P hPq]
  · rw [hprob, ENNReal.div_eq_zero_iff]
    left
    rw [Nat.cast_eq_zero, card_eq_zero, filter_eq_empty_iff]
    rintro Q - ⟨-, rfl⟩
    refine hPq ?_
    rw [mem_torsion, ← mul_smul, mul_comm, ← hcard]
    exact card_nsmul_eq_zero'

end

/-- **C103** (points). `G1Projective::rand` and `G2Projective::rand` read one sequence of words from every tape and end with probability
one. The result is always in the group of order `r`; each of the `r - 1` non-zero elements has probability `h / (h r - 1)`, zero has
probability `(h - 1) / (h r - 1)`. -/
theorem C103_point :
    (Det g1Rand ∧ Total g1Rand ∧ prob g1Rand 0 = ((blsH1 - 1 : ℕ) : ℝ≥0∞) / (blsH1 * blsR - 1 : ℕ) ∧
      (∀ P ∈ torsion blsR blsE1.Point, P ≠ 0 → prob g1Rand P = (blsH1 : ℝ≥0∞) / (blsH1 * blsR - 1 : ℕ)) ∧
      ∀ P ∉ torsion blsR blsE1.Point, prob g1Rand P = 0) ∧
    (Det g2Rand ∧ Total g2Rand ∧ prob g2Rand 0 = ((blsH2 - 1 : ℕ) : ℝ≥0∞) / (blsH2 * blsR - 1 : ℕ) ∧
      (∀ P ∈ torsion blsR blsE2.Point, P ≠ 0 → prob g2Rand P = (blsH2 : ℝ≥0∞) / (blsH2 * blsR - 1 : ℕ)) ∧
      ∀ P ∉ torsion blsR blsE2.Point, prob g2Rand P = 0) := by
  have := finite_e1
  have := finite_e2
  obtain ⟨-, hr, -, -, -, -, c1, c2⟩ := C96_groups
  refine ⟨?_, ?_⟩
  · obtain ⟨hd, ht, hp⟩ := fqRand_law
    have h := groupRand_law (h := blsH1) hd ht hp wireFq_good.asymm wireFq_good.total
      (no_two_torsion b1_ok (by rw [card_e1]; decide +kernel)) hr card_e1 c1 C102_order.2.2.2.2.1 (by decide)
    exact h
  · obtain ⟨hd, ht, hp⟩ := fq2Rand_law
    have h := groupRand_law (h := blsH2) (N := blsP ^ 2) hd ht (by rwa [Nat.cast_pow]) wireFq2_good.asymm
      wireFq2_good.total
      (no_two_torsion b2_ok (by rw [card_e2]; decide +kernel)) hr card_e2 c2 C102_order.2.2.2.2.2 (by decide)
    exact h

/-! ### the reference string -/

theorem zero_share {h q : ℕ} (h0 : h ≠ 0) (hq : q.Prime) : ((h - 1 : ℕ) : ℝ≥0∞) / (h * q - 1 : ℕ) ≤ (q : ℝ≥0∞)⁻¹ := by
  have h1 : (h - 1) * q ≤ h * q - 1 := by
    have := hq.pos
    rw [Nat.sub_mul]
    omega
  have hpos : 0 < h * q - 1 := by
    have : q ≤ h * q := Nat.le_mul_of_pos_left q (Nat.pos_of_ne_zero h0)
    have := hq.one_lt
    omega
  have hq0 : (q : ℝ≥0∞) ≠ 0 := by simpa using hq.ne_zero
  rw [ENNReal.div_le_iff (Nat.cast_ne_zero.2 hpos.ne') (ENNReal.natCast_ne_top _), mul_comm, ← div_eq_mul_inv,
    ENNReal.le_div_iff_mul_le (.inl hq0) (.inl (ENNReal.natCast_ne_top _))]
  exact_mod_cast h1

/-- **C103** (reference string). The three points `SRS::setup` draws are independent, each with the law of its group; all three are in the
groups of order `r`, and the probability that one of them is zero is at most `3 / r`. -/
theorem C103_srs :
    (Det srsRand ∧ Total srsRand) ∧
    (∀ s, prob srsRand s = prob g1Rand s.g1 * prob g2Rand s.g2 * prob g2Rand s.g2Prime) ∧
    (∀ s, prob srsRand s ≠ 0 → s.g1 ∈ torsion blsR blsE1.Point ∧ s.g2 ∈ torsion blsR blsE2.Point ∧
      s.g2Prime ∈ torsion blsR blsE2.Point) ∧
    chance srsRand (fun s => s.g1 = 0 ∨ s.g2 = 0 ∨ s.g2Prime = 0) ≤ 3 * (blsR : ℝ≥0∞)⁻¹ := by
  classical
  obtain ⟨⟨d1, t1, z1, -, o1⟩, d2, t2, z2, -, o2⟩ := C103_point
  have hprob : ∀ s, prob srsRand s = prob g1Rand s.g1 * prob g2Rand s.g2 * prob g2Rand s.g2Prime := by
    intro s
    rw [srsRand, prob_bind d1]
    simp only [prob_bind d2, prob_ret, SRS.setup]
    rw [tsum_eq_single s.g1, tsum_eq_single s.g2, tsum_eq_single s.g2Prime]
    · rw [if_pos rfl, mul_one, mul_assoc]
    · intro c hc
      rw [if_neg (fun h => hc (congrArg SRS.g2Prime h)), mul_zero]
    · intro b hb
      rw [ENNReal.tsum_eq_zero.2 (fun c => by rw [if_neg (fun h => hb (congrArg SRS.g2 h)), mul_zero]), mul_zero]
    · intro a ha
      rw [ENNReal.tsum_eq_zero.2 (fun b => by
        rw [ENNReal.tsum_eq_zero.2 (fun c => by rw [if_neg (fun h => ha (congrArg SRS.g1 h)), mul_zero]), mul_zero]), mul_zero]
  refine ⟨⟨det_bind d1 fun _ => det_bind d2 fun _ => det_bind d2 fun _ => det_ret _,
    total_bind d1 t1 fun _ => total_bind d2 t2 fun _ => total_bind d2 t2 fun _ => total_ret _⟩, hprob, fun s hs => ?_, ?_⟩
  · rw [hprob] at hs
    refine ⟨?_, ?_, ?_⟩ <;> by_contra hc
    · exact hs (by rw [o1 _ hc, zero_mul, zero_mul])
    · exact hs (by rw [o2 _ hc, mul_zero, zero_mul])
    · exact hs (by rw [o2 _ hc, mul_zero])
  · let e : blsE1.Point × blsE2.Point × blsE2.Point ≃ SRS blsE1.Point blsE2.Point :=
      ⟨fun x => ⟨x.1, x.2.1, x.2.2⟩, fun s => (s.g1, s.g2, s.g2Prime), fun _ => rfl, fun _ => rfl⟩
    have hsum : ∀ p : blsE1.Point → blsE2.Point → blsE2.Point → Prop,
        chance srsRand (fun s => p s.g1 s.g2 s.g2Prime) =
          ∑' a, ∑' b, ∑' c, if p a b c then prob g1Rand a * prob g2Rand b * prob g2Rand c else 0 := by
      intro p
      rw [chance, ← e.tsum_eq, ENNReal.tsum_prod']
      refine tsum_congr fun a => ?_
      rw [ENNReal.tsum_prod']
      refine tsum_congr fun b => tsum_congr fun c => ?_
      rw [hprob]
      rfl
    have k1 : chance srsRand (fun s => s.g1 = 0) = prob g1Rand 0 := by
      rw [hsum fun a _ _ => a = 0, tsum_eq_single 0 (fun a ha => by simp [ha])]
      simp only [if_true, mul_assoc, ENNReal.tsum_mul_left]
      rw [show ∑' c, prob g2Rand c = 1 from t2]
      simp only [mul_one]
      rw [show ∑' c, prob g2Rand c = 1 from t2, mul_one]
    have k2 : chance srsRand (fun s => s.g2 = 0) = prob g2Rand 0 := by
      rw [hsum fun _ b _ => b = 0]
      have : ∀ a, (∑' b, ∑' c, if b = 0 then prob g1Rand a * prob g2Rand b * prob g2Rand c else 0) =
          prob g1Rand a * prob g2Rand 0 := by
        intro a
        rw [tsum_eq_single 0 (fun b hb => by simp [hb])]
        simp only [if_true, ENNReal.tsum_mul_left]
        rw [show ∑' c, prob g2Rand c = 1 from t2, mul_one]
      rw [tsum_congr this, ENNReal.tsum_mul_right, show ∑' c, prob g1Rand c = 1 from t1, one_mul]
    have k3 : chance srsRand (fun s => s.g2Prime = 0) = prob g2Rand 0 := by
      rw [hsum fun _ _ c => c = 0]
      have : ∀ a b, (∑' c, if c = 0 then prob g1Rand a * prob g2Rand b * prob g2Rand c else 0) =
          prob g1Rand a * (prob g2Rand b * prob g2Rand 0) := by
        intro a b
        rw [tsum_eq_single 0 (fun c hc => by simp [hc]), if_pos rfl, mul_assoc]
      rw [tsum_congr fun a => tsum_congr fun b => this a b]
      simp only [ENNReal.tsum_mul_left, ENNReal.tsum_mul_right]
      rw [show ∑' c, prob g2Rand c = 1 from t2, show ∑' c, prob g1Rand c = 1 from t1, one_mul, one_mul]
    have hle : chance srsRand (fun s => s.g1 = 0 ∨ s.g2 = 0 ∨ s.g2Prime = 0) ≤
        chance srsRand (fun s => s.g1 = 0) + (chance srsRand (fun s => s.g2 = 0) + chance srsRand (fun s => s.g2Prime = 0)) := by
      unfold chance
      rw [← ENNReal.tsum_add, ← ENNReal.tsum_add]
      refine ENNReal.tsum_le_tsum fun s => ?_
      by_cases h1 : s.g1 = 0 <;> by_cases h2 : s.g2 = 0 <;> by_cases h3 : s.g2Prime = 0 <;>
        simp only [h1, h2, h3, if_true, if_false, or_true, or_false, or_self, add_zero, zero_add, le_refl, le_add_self,
          le_self_add]
    refine hle.trans ?_
    rw [k1, k2, k3, z1, z2]
    have hr : blsR.Prime := C61_prime
    refine (add_le_add (zero_share (by decide) hr) (add_le_add (zero_share (by decide) hr) (zero_share (by decide) hr))).trans ?_
    rw [show (3 : ℝ≥0∞) = 1 + (1 + 1) by norm_num, add_mul, add_mul, one_mul]

/-! ### examples -/

/-- Eight words of ones make a number above the modulus, also without the top bit: they are read and refused, and eight zero words after
them give zero. -/
example : frRand (List.replicate 8 0xffffffff ++ List.replicate 8 0) 0 := by
  refine .again ⟨rfl, ?_⟩ (.done ⟨rfl, ?_⟩)
  · exact if_neg (by decide +kernel)
  · have h : wordVal (List.replicate 8 0) % 2 ^ 255 = 0 := by decide +kernel
    simp only
    rw [h, if_pos (by decide +kernel), Nat.cast_zero, zero_mul]

/-- The words of the Montgomery form of the coordinate of the generator, then a zero word for the sign: the result is the cofactor multiple
of the generator. -/
example : g1Rand (ofVal 12 (blsG1x * 2 ^ 384 % blsP) ++ [0]) (blsH1 • blsG1.1) := by
  have hv : wordVal (ofVal 12 (blsG1x * 2 ^ 384 % blsP)) % 2 ^ 381 = blsG1x * 2 ^ 384 % blsP := by decide +kernel
  have hy : blsG1y < blsP := by decide +kernel
  have hlt : ¬ wireFq.lt (-((blsG1y : ℕ) : BlsFq)) ((blsG1y : ℕ) : BlsFq) := by
    have : (-((blsG1y : ℕ) : BlsFq)) = ((blsP - blsG1y : ℕ) : BlsFq) := by
      rw [Nat.cast_sub hy.le, ZMod.natCast_self, zero_sub]
    simp only [wireFq]
    rw [this, ZMod.val_natCast_of_lt hy, ZMod.val_natCast_of_lt (Nat.sub_lt (by decide) (by decide))]
    decide +kernel
  have hx : fqRand (ofVal 12 (blsG1x * 2 ^ 384 % blsP)) ((blsG1x : ℕ) : BlsFq) := by
    refine .done ⟨length_ofVal _ _, ?_⟩
    refine (fpRound_iff (n := 12) (bits := 381) (by decide +kernel) _).2 ?_
    rw [hv, ← Nat.cast_mul, ZMod.val_natCast]
  refine ⟨_, blsG1.1, [], .done ⟨_, _, _, hx, ⟨[0], false, [], ⟨rfl, by decide⟩, ⟨rfl, ?_⟩, rfl⟩, rfl⟩, ⟨rfl, rfl⟩, List.append_nil _⟩
  have h := (pointFromX_iff wireFq_good.asymm wireFq_good.total (no_two_torsion b1_ok (by rw [card_e1]; decide +kernel))
    ((blsG1x : ℕ) : BlsFq) false _ _ (on_e1 (x := blsG1x) (y := blsG1y) (by decide +kernel))).2
    ⟨rfl, by rw [pointSign]; simpa using hlt⟩
  exact h

end Verif
