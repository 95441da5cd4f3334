import Verif.Model.ArkProj
import Mathlib.Tactic.LinearCombination
import Mathlib.Tactic.FieldSimp

/-!
# Lemmas on Jacobian coordinates
-/

namespace Verif

open WeierstrassCurve

set_option linter.unusedSectionVars false

variable {F : Type} [Field F] [DecidableEq F]

/-- The Jacobian coordinates `P` denote the point `Q`: `z = 0` for infinity, `(x, y) = (X / Z², Y / Z³)` otherwise. -/
def Spec.Denotes {b : F} (P : JacPoint F) (Q : (swCurve 0 b).Point) : Prop :=
  (P.z = 0 ∧ Q = 0) ∨
    (P.z ≠ 0 ∧ ∃ (x y : F) (h : (swCurve 0 b).Nonsingular x y), Q = .some x y h ∧ P.x = x * P.z ^ 2 ∧ P.y = y * P.z ^ 3)

/-- The affine coordinates `A` denote the point `Q`: `(0, 1)` with the mark for infinity, the coordinates otherwise. -/
def Spec.DenotesAff {b : F} (A : AffPoint F) (Q : (swCurve 0 b).Point) : Prop :=
  (A = ⟨0, 1, true⟩ ∧ Q = 0) ∨ ∃ (x y : F) (h : (swCurve 0 b).Nonsingular x y), Q = .some x y h ∧ A = ⟨x, y, false⟩

theorem denotes_zero {b : F} : Spec.Denotes (JacPoint.zero : JacPoint F) (0 : (swCurve 0 b).Point) := .inl ⟨rfl, rfl⟩

theorem sw_negY {b x y : F} : (swCurve 0 b).negY x y = -y := by simp [Affine.negY, swCurve]

theorem sw_neg {b x y : F} (h : (swCurve 0 b).Nonsingular x y) :
    ∃ h' : (swCurve 0 b).Nonsingular x (-y), -Affine.Point.some _ _ h = Affine.Point.some _ _ h' := by
  have hs := (Affine.nonsingular_neg (W' := swCurve 0 b) _ _).2 h
  refine ⟨sw_negY (b := b) ▸ hs, ?_⟩
  rw [Affine.Point.neg_some]
  simp only [sw_negY]

theorem sw_dbl_zero {b x y : F} (h : (swCurve 0 b).Nonsingular x y) (hy : 2 * y = 0) :
    Affine.Point.some _ _ h + Affine.Point.some _ _ h = 0 := by
  obtain ⟨h', e⟩ := sw_neg h
  have : Affine.Point.some _ _ h = -Affine.Point.some _ _ h := by
    rw [e]
    exact sw_some_congr _ _ rfl (by linear_combination hy)
  nth_rw 1 [this]
  exact neg_add_cancel _

theorem sw_same_x {b x y v : F} (h : (swCurve 0 b).Nonsingular x y) (h2 : (swCurve 0 b).Nonsingular x v) (hy : y ≠ v) :
    Affine.Point.some _ _ h + Affine.Point.some _ _ h2 = 0 := by
  obtain ⟨h', e⟩ := sw_neg h2
  have e1 := sw_equation.1 h.1
  have e2 := sw_equation.1 h2.1
  have hp : (y - v) * (y + v) = 0 := by linear_combination e1 - e2
  have hv : y = -v := by
    rcases mul_eq_zero.1 hp with h0 | h0
    · exact absurd (sub_eq_zero.1 h0) hy
    · linear_combination h0
  have : Affine.Point.some _ _ h = -Affine.Point.some _ _ h2 := by
    rw [e]
    exact sw_some_congr _ _ rfl hv
  rw [this]
  exact neg_add_cancel _

theorem isZero_iff {P : JacPoint F} : P.isZero = true ↔ P.z = 0 := by simp [JacPoint.isZero]

theorem denotes_double {b : F} {P : JacPoint F} {Q : (swCurve 0 b).Point} (h : Spec.Denotes P Q) :
    Spec.Denotes P.double (Q + Q) := by
  rcases h with ⟨hz, rfl⟩ | ⟨hz, x, y, hxy, rfl, hX, hY⟩
  · rw [JacPoint.double, if_pos (isZero_iff.2 hz), add_zero]
    exact .inl ⟨hz, rfl⟩
  · rw [JacPoint.double, if_neg (fun h => hz (isZero_iff.1 h))]
    by_cases hy : 2 * y = 0
    · left
      refine ⟨?_, sw_dbl_zero hxy hy⟩
      show 2 * (P.z * P.y) = 0
      rw [hY]
      linear_combination P.z ^ 4 * hy
    · right
      obtain ⟨l, hl⟩ : ∃ l, l * (2 * y) = 3 * x ^ 2 + 0 := ⟨_, div_mul_cancel₀ _ hy⟩
      obtain ⟨h', e⟩ := sw_dbl (l := l) hxy hy hl
      refine ⟨?_, _, _, h', e, ?_, ?_⟩
      · show 2 * (P.z * P.y) ≠ 0
        rw [hY, show 2 * (P.z * (y * P.z ^ 3)) = 2 * y * P.z ^ 4 by ring]
        exact mul_ne_zero hy (pow_ne_zero _ hz)
      · simp only [hX, hY]
        linear_combination -(P.z ^ 8 * (l * (2 * y) + 3 * x ^ 2)) * hl
      · simp only [hX, hY]
        have h3 : 3 * x ^ 2 = l * (2 * y) := by rw [hl, add_zero]
        have e1 : x * P.z ^ 2 * (x * P.z ^ 2) + 2 * (x * P.z ^ 2 * (x * P.z ^ 2)) = l * (2 * y) * P.z ^ 4 := by
          linear_combination P.z ^ 4 * h3
        rw [e1]
        ring

theorem denotes_addMixed (h2 : (2 : F) ≠ 0) {b : F} {P : JacPoint F} {Q : (swCurve 0 b).Point} {A : AffPoint F} {R : (swCurve 0 b).Point}
    (h : Spec.Denotes P Q) (hA : Spec.DenotesAff A R) : Spec.Denotes (P.addMixed A) (Q + R) := by
  rcases hA with ⟨rfl, rfl⟩ | ⟨u, v, huv, rfl, rfl⟩
  · rw [JacPoint.addMixed, if_pos rfl, add_zero]
    exact h
  rw [JacPoint.addMixed, if_neg (by simp)]
  by_cases hz : P.z = 0
  · rw [if_pos (isZero_iff.2 hz)]
    rcases h with ⟨-, rfl⟩ | ⟨hz', -⟩
    · rw [zero_add]
      exact .inr ⟨one_ne_zero, u, v, huv, rfl, by simp, by simp⟩
    · exact absurd hz hz'
  rw [if_neg (fun h => hz (isZero_iff.1 h))]
  rcases id h with ⟨hz', -⟩ | ⟨-, x, y, hxy, rfl, hX, hY⟩
  · exact absurd hz' hz
  simp only
  split
  · rename_i hc
    have hx : x = u := mul_right_cancel₀ (pow_ne_zero 2 hz) (by rw [← hX, hc.1]; ring)
    have hy : y = v := mul_right_cancel₀ (pow_ne_zero 3 hz) (by rw [← hY, hc.2]; ring)
    subst hx hy
    exact denotes_double h
  · rename_i hc
    by_cases hx : x = u
    · subst hx
      have hy : y ≠ v := by
        rintro rfl
        exact hc ⟨by rw [hX]; ring, by rw [hY]; ring⟩
      exact .inl ⟨by simp only [hX]; ring, sw_same_x hxy huv hy⟩
    · right
      have hx' : x - u ≠ 0 := sub_ne_zero.2 hx
      obtain ⟨l, hl⟩ : ∃ l, l * (x - u) = y - v := ⟨_, div_mul_cancel₀ _ hx'⟩
      obtain ⟨h', e⟩ := sw_add (l := l) hxy huv hx' hl
      have hv : v = y - l * (x - u) := by rw [hl]; ring
      have hzz : (P.z + (u * (P.z * P.z) - P.x)) * (P.z + (u * (P.z * P.z) - P.x)) - P.z * P.z -
          (u * (P.z * P.z) - P.x) * (u * (P.z * P.z) - P.x) = 2 * P.z ^ 3 * (u - x) := by rw [hX]; ring
      refine ⟨?_, _, _, h', e, ?_, ?_⟩
      · simp only [hzz]
        exact mul_ne_zero (mul_ne_zero h2 (pow_ne_zero _ hz)) (sub_ne_zero.2 (Ne.symm hx))
      · simp only [hX, hY]
        rw [hv]
        ring
      · simp only [hX, hY]
        rw [hv]
        ring

theorem denotes_add (h2 : (2 : F) ≠ 0) {b : F} {P P' : JacPoint F} {Q Q' : (swCurve 0 b).Point} (h : Spec.Denotes P Q)
    (h' : Spec.Denotes P' Q') : Spec.Denotes (P.add P') (Q + Q') := by
  rw [JacPoint.add]
  rcases id h with ⟨hz, rfl⟩ | ⟨hz, x, y, hxy, rfl, hX, hY⟩
  · rw [if_pos (isZero_iff.2 hz), zero_add]
    exact h'
  rw [if_neg (fun h => hz (isZero_iff.1 h))]
  rcases id h' with ⟨hz', rfl⟩ | ⟨hz', u, v, huv, rfl, hX', hY'⟩
  · rw [if_pos (isZero_iff.2 hz'), add_zero]
    exact h
  rw [if_neg (fun h => hz' (isZero_iff.1 h))]
  simp only
  have hzz : P.z * P'.z ≠ 0 := mul_ne_zero hz hz'
  split
  · rename_i hc
    have hx : x = u := mul_right_cancel₀ (pow_ne_zero 2 hzz) (by
      have := hc.1
      rw [hX, hX'] at this
      linear_combination this)
    have hy : y = v := mul_right_cancel₀ (pow_ne_zero 3 hzz) (by
      have := hc.2
      rw [hY, hY'] at this
      linear_combination this)
    subst hx hy
    exact denotes_double h
  · rename_i hc
    by_cases hx : x = u
    · subst hx
      have hy : y ≠ v := by
        rintro rfl
        exact hc ⟨by rw [hX, hX']; ring, by rw [hY, hY']; ring⟩
      exact .inl ⟨by simp only [hX, hX']; ring, sw_same_x hxy huv hy⟩
    · right
      have hx' : x - u ≠ 0 := sub_ne_zero.2 hx
      obtain ⟨l, hl⟩ : ∃ l, l * (x - u) = y - v := ⟨_, div_mul_cancel₀ _ hx'⟩
      obtain ⟨h'', e⟩ := sw_add (l := l) hxy huv hx' hl
      have hv : v = y - l * (x - u) := by rw [hl]; ring
      refine ⟨?_, _, _, h'', e, ?_, ?_⟩
      · have hzz' : ((P.z + P'.z) * (P.z + P'.z) - P.z * P.z - P'.z * P'.z) * (P'.x * (P.z * P.z) - P.x * (P'.z * P'.z)) =
            2 * (P.z * P'.z) ^ 3 * (u - x) := by rw [hX, hX']; ring
        simp only [hzz']
        exact mul_ne_zero (mul_ne_zero h2 (pow_ne_zero _ hzz)) (sub_ne_zero.2 (Ne.symm hx))
      · simp only [hX, hY, hX', hY']
        rw [hv]
        ring
      · simp only [hX, hY, hX', hY']
        rw [hv]
        ring

theorem denotes_neg {b : F} {P : JacPoint F} {Q : (swCurve 0 b).Point} (h : Spec.Denotes P Q) : Spec.Denotes P.neg (-Q) := by
  rw [JacPoint.neg]
  rcases h with ⟨hz, rfl⟩ | ⟨hz, x, y, hxy, rfl, hX, hY⟩
  · rw [if_pos (isZero_iff.2 hz), neg_zero]
    exact .inl ⟨hz, rfl⟩
  · rw [if_neg (fun h => hz (isZero_iff.1 h))]
    obtain ⟨h', e⟩ := sw_neg hxy
    exact .inr ⟨hz, x, -y, h', e, hX, by simp only [hY]; ring⟩

theorem denotesAff_neg {b : F} {A : AffPoint F} {Q : (swCurve 0 b).Point} (h : Spec.DenotesAff A Q) :
    Spec.DenotesAff A.neg (-Q) := by
  rcases h with ⟨rfl, rfl⟩ | ⟨x, y, hxy, rfl, rfl⟩
  · exact .inl ⟨rfl, neg_zero⟩
  · obtain ⟨h', e⟩ := sw_neg hxy
    exact .inr ⟨x, -y, h', e, rfl⟩

theorem denotes_intoProjective {b : F} {A : AffPoint F} {Q : (swCurve 0 b).Point} (h : Spec.DenotesAff A Q) :
    Spec.Denotes A.intoProjective Q := by
  rcases h with ⟨rfl, rfl⟩ | ⟨x, y, hxy, rfl, rfl⟩
  · exact .inl ⟨rfl, rfl⟩
  · exact .inr ⟨one_ne_zero, x, y, hxy, rfl, by simp [AffPoint.intoProjective], by simp [AffPoint.intoProjective]⟩

theorem denotes_intoAffine {b : F} {P : JacPoint F} {Q : (swCurve 0 b).Point} (h : Spec.Denotes P Q) :
    Spec.DenotesAff P.intoAffine Q := by
  rw [JacPoint.intoAffine]
  rcases h with ⟨hz, rfl⟩ | ⟨hz, x, y, hxy, rfl, hX, hY⟩
  · rw [if_pos (isZero_iff.2 hz)]
    exact .inl ⟨rfl, rfl⟩
  · rw [if_neg (fun h => hz (isZero_iff.1 h))]
    refine .inr ⟨x, y, hxy, rfl, ?_⟩
    split
    · rename_i h1
      rw [h1] at hX hY
      rw [hX, hY, one_pow, one_pow, mul_one, mul_one]
    · simp only [AffPoint.mk.injEq, and_true]
      refine ⟨?_, ?_⟩
      · rw [hX]; field_simp
      · rw [hY]; field_simp

theorem denotes_isZero {b : F} {P : JacPoint F} {Q : (swCurve 0 b).Point} (h : Spec.Denotes P Q) : P.isZero = true ↔ Q = 0 := by
  rw [isZero_iff]
  rcases h with ⟨hz, rfl⟩ | ⟨hz, x, y, hxy, rfl, hX, hY⟩
  · simp [hz]
  · exact ⟨fun h => absurd h hz, fun h => absurd h (Affine.Point.some_ne_zero _)⟩

theorem denotes_eq {b : F} {P P' : JacPoint F} {Q Q' : (swCurve 0 b).Point} (h : Spec.Denotes P Q) (h' : Spec.Denotes P' Q') :
    P.eq P' = true ↔ Q = Q' := by
  rw [JacPoint.eq]
  rcases id h with ⟨hz, rfl⟩ | ⟨hz, x, y, hxy, rfl, hX, hY⟩
  · rw [if_pos (isZero_iff.2 hz), denotes_isZero h', eq_comm]
  rw [if_neg (fun h => hz (isZero_iff.1 h))]
  rcases id h' with ⟨hz', rfl⟩ | ⟨hz', u, v, huv, rfl, hX', hY'⟩
  · rw [if_pos (isZero_iff.2 hz')]
    exact ⟨(fun h => by cases h), fun h => absurd h (Affine.Point.some_ne_zero _)⟩
  rw [if_neg (fun h => hz' (isZero_iff.1 h)), decide_eq_true_iff]
  have hzz : P.z * P'.z ≠ 0 := mul_ne_zero hz hz'
  constructor
  · rintro ⟨e1, e2⟩
    rw [hX, hX'] at e1
    rw [hY, hY'] at e2
    exact sw_some_congr _ _ (mul_right_cancel₀ (pow_ne_zero 2 hzz) (by linear_combination e1))
      (mul_right_cancel₀ (pow_ne_zero 3 hzz) (by linear_combination e2))
  · intro e
    obtain ⟨rfl, rfl⟩ := Affine.Point.some.inj e
    exact ⟨by rw [hX, hX']; ring, by rw [hY, hY']; ring⟩

theorem denotesAff_eq {b : F} {A A' : AffPoint F} {Q Q' : (swCurve 0 b).Point} (h : Spec.DenotesAff A Q)
    (h' : Spec.DenotesAff A' Q') : A = A' ↔ Q = Q' := by
  rcases h with ⟨rfl, rfl⟩ | ⟨x, y, hxy, rfl, rfl⟩ <;> rcases h' with ⟨rfl, rfl⟩ | ⟨u, v, huv, rfl, rfl⟩
  · simp
  · exact ⟨(fun h => by cases h), fun h => absurd h.symm (Affine.Point.some_ne_zero _)⟩
  · exact ⟨(fun h => by cases h), fun h => absurd h (Affine.Point.some_ne_zero _)⟩
  · simp only [AffPoint.mk.injEq, and_true, Affine.Point.some.injEq]

/-- The number that the bits stand for, most significant first. -/
def Spec.number (bits : List Bool) : ℕ := bits.foldl (fun n b => 2 * n + if b then 1 else 0) 0

theorem foldl_double {b : F} {Q : (swCurve 0 b).Point} {g : JacPoint F → JacPoint F}
    (hg : ∀ P R, Spec.Denotes P R → Spec.Denotes (g P) (R + Q)) (bits : List Bool) : ∀ (n : ℕ) (P : JacPoint F),
    Spec.Denotes P (n • Q) →
    Spec.Denotes (bits.foldl (fun res b => if b then g res.double else res.double) P)
      (bits.foldl (fun n b => 2 * n + if b then 1 else 0) n • Q) := by
  induction bits with
  | nil => intro n P h; exact h
  | cons c bits ih =>
    intro n P h
    refine ih _ _ ?_
    have hd := denotes_double h
    rw [← add_nsmul, ← two_mul] at hd
    cases c
    · simpa using hd
    · have := hg _ _ hd
      rw [← succ_nsmul] at this
      simpa using this

theorem denotes_affMul (h2 : (2 : F) ≠ 0) {b : F} {A : AffPoint F} {Q : (swCurve 0 b).Point} (h : Spec.DenotesAff A Q)
    (bits : List Bool) : Spec.Denotes (A.mulBits bits) (Spec.number bits • Q) :=
  foldl_double (g := fun P => P.addMixed A) (fun _ _ hP => denotes_addMixed h2 hP h) bits 0 _ (by
    rw [zero_nsmul]; exact denotes_zero)

theorem number_dropWhile (bits : List Bool) : Spec.number (bits.dropWhile (!·)) = Spec.number bits := by
  induction bits with
  | nil => rfl
  | cons c bits ih =>
    cases c
    · rw [List.dropWhile_cons_of_pos rfl, ih]
      rfl
    · rw [List.dropWhile_cons_of_neg (by simp)]

theorem denotes_mul (h2 : (2 : F) ≠ 0) {b : F} {P : JacPoint F} {Q : (swCurve 0 b).Point} (h : Spec.Denotes P Q)
    (bits : List Bool) : Spec.Denotes (P.mulBits bits) (Spec.number bits • Q) := by
  rw [← number_dropWhile]
  exact foldl_double (g := fun R => R.add P) (fun _ _ hP => denotes_add h2 hP h) _ 0 _ (by
    rw [zero_nsmul]; exact denotes_zero)

theorem number_bits (n m : ℕ) : ∀ v : ℕ, ((List.range m).reverse.map fun i => decide (n / 2 ^ i % 2 = 1)).foldl
    (fun n b => 2 * n + if b then 1 else 0) v = v * 2 ^ m + n % 2 ^ m := by
  induction m with
  | zero => intro v; simp [Nat.mod_one]
  | succ m ih =>
    intro v
    rw [List.range_succ, List.reverse_append, List.map_append, List.foldl_append, ih]
    simp only [List.reverse_cons, List.reverse_nil, List.nil_append, List.map_cons, List.map_nil, List.foldl_cons,
      List.foldl_nil, decide_eq_true_eq]
    have h1 : n % 2 ^ (m + 1) = 2 ^ m * (n / 2 ^ m % 2) + n % 2 ^ m := by
      rw [pow_succ, Nat.mod_mul]
      ring
    rw [h1]
    rcases Nat.mod_two_eq_zero_or_one (n / 2 ^ m) with h0 | h0
    · rw [h0, if_neg (by decide)]; ring
    · rw [h0, if_pos rfl]; ring

theorem number_bitsBE {k n : ℕ} (h : n < 2 ^ (64 * k)) : Spec.number (bitsBE (limbs k n)) = n := by
  have e : bitsBE (limbs k n) = (List.range (64 * k)).reverse.map fun i => decide (n / 2 ^ i % 2 = 1) := by
    rw [bitsBE]
    have hl : (limbs k n).length = k := by simp [limbs]
    rw [hl]
    refine List.map_congr_left fun i hi => ?_
    rw [List.mem_reverse, List.mem_range] at hi
    have hk : i / 64 < k := by omega
    have : (limbs k n).getD (i / 64) 0 = n / 2 ^ (64 * (i / 64)) % 2 ^ 64 := by
      rw [List.getD_eq_getElem?_getD, List.getElem?_eq_getElem (by rw [hl]; exact hk)]
      simp [limbs]
    rw [this]
    congr 1
    have h64 : i % 64 < 64 := Nat.mod_lt _ (by decide)
    have h3 : (n / 2 ^ (64 * (i / 64)) % 2 ^ 64) / 2 ^ (i % 64) % 2 = n / 2 ^ i % 2 := by
      have e1 : (2 : ℕ) ^ 64 = 2 ^ (i % 64) * (2 * 2 ^ (63 - i % 64)) := by
        rw [← pow_succ', ← pow_add]
        congr 1
        omega
      rw [e1, Nat.mod_mul_right_div_self, Nat.mod_mul_right_mod, Nat.div_div_eq_div_mul, ← pow_add]
      congr 3
      omega
    rw [h3]
  rw [Spec.number, e, number_bits, zero_mul, zero_add, Nat.mod_eq_of_lt h]

end Verif
