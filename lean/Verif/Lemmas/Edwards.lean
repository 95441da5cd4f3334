import Verif.Lemmas.EdField

/-!
# Edwards coordinates

The points of `edW` correspond to the solutions of `-x² + y² = 1 + d x² y²`.
-/

namespace Verif

open WeierstrassCurve

/-- `d` of RFC 8032, §5.1. -/
def edD : EdF := -121665 / 121666

/-- The equation of RFC 8032, §5.1. -/
def EdEq (x y : EdF) : Prop := -x ^ 2 + y ^ 2 = 1 + edD * x ^ 2 * y ^ 2

/-- Edwards coordinates of a point. -/
def toEd : edW.Point → EdF × EdF
  | .zero => (0, 1)
  | .some X Y _ => ((edC : ℕ) * (X - (edWt : ℕ)) / Y, (X - (edWt : ℕ) - 1) / (X - (edWt : ℕ) + 1))

theorem edD_eq : edD * 486664 = -486660 := by
  have h : (121666 : EdF) ≠ 0 := by simpa using edF_ne (m := 121666) (n := 0) (by decide +kernel)
  rw [edD, show (486664 : EdF) = 121666 * 4 by norm_num, ← mul_assoc, div_mul_cancel₀ _ h]
  norm_num

theorem ed_discriminant : (64 * (edWa : EdF) ^ 3 + 432 * (edWb : EdF) ^ 2) ≠ 0 := by
  have := edF_ne (m := 64 * edWa ^ 3 + 432 * edWb ^ 2) (n := 0) (by decide +kernel)
  push_cast at this
  exact this

/-- The equation of Curve25519. -/
theorem ed_montgomery {X Y : EdF} : edW.Nonsingular X Y ↔
    Y ^ 2 = (X - (edWt : ℕ)) ^ 3 + 486662 * (X - (edWt : ℕ)) ^ 2 + (X - (edWt : ℕ)) := by
  rw [sw_nonsingular ed_discriminant, edWa_eq, edWb_eq, edWt_eq]
  have h3 : (486662 : EdF) / 3 * 3 = 486662 := div_mul_cancel₀ _ edF_three
  have h27 : (27 : EdF) ≠ 0 := by
    rw [show (27 : EdF) = 3 ^ 3 by norm_num]
    exact pow_ne_zero _ edF_three
  have e1 : (486662 : EdF) ^ 2 / 3 = 3 * (486662 / 3) ^ 2 := by
    rw [div_pow, ← mul_div_assoc, div_eq_div_iff edF_three (pow_ne_zero _ edF_three)]; ring
  have e2 : (2 * 486662 ^ 3 / 27 : EdF) = 2 * (486662 / 3) ^ 3 := by
    rw [div_pow, show (27 : EdF) = 3 ^ 3 by norm_num, mul_div_assoc]
  rw [e1, e2]
  generalize (486662 : EdF) / 3 = t at h3 ⊢
  rw [← h3]
  constructor <;> intro h <;> rw [h] <;> ring

theorem ed_u_ne {u v : EdF} (h : v ^ 2 = u ^ 3 + 486662 * u ^ 2 + u) : u + 1 ≠ 0 := by
  intro h0
  refine edA_not_square v ?_
  rw [h, eq_neg_of_add_eq_zero_left h0]
  norm_num

theorem ed_v_ne {u v : EdF} (h : v ^ 2 = u ^ 3 + 486662 * u ^ 2 + u) (hu : u ≠ 0) : v ≠ 0 := by
  rintro rfl
  have h1 : u * (u ^ 2 + 486662 * u + 1) = 0 := by linear_combination -h
  rcases mul_eq_zero.1 h1 with h2 | h2
  · exact hu h2
  · exact edDisc_not_square (2 * u + 486662) (by linear_combination 4 * h2)

theorem toEd_eq (P : edW.Point) : EdEq (toEd P).1 (toEd P).2 := by
  have hd := edD_eq
  match P with
  | .zero => simp [toEd, EdEq]
  | .some X Y h =>
    rw [ed_montgomery] at h
    simp only [toEd, EdEq]
    generalize X - ((edWt : ℕ) : EdF) = u at h ⊢
    have h1 := ed_u_ne h
    have hc := edC_sq
    by_cases hu : u = 0
    · subst hu; simp
    · have hv := ed_v_ne h hu
      generalize ((edC : ℕ) : EdF) = c at hc
      field_simp
      have e : edD * c ^ 2 = 486660 := by rw [hc]; linear_combination -hd
      linear_combination (-(u ^ 2 * (u + 1) ^ 2)) * hc + (-(u^2 * (u - 1)^2)) * e + (-4 * u) * h

/-- Different points have different coordinates. -/
theorem toEd_inj {P Q : edW.Point} (h : toEd P = toEd Q) : P = Q := by
  have key : ∀ {X Y} (hq : edW.Nonsingular X Y), (toEd (.some X Y hq)).2 ≠ 1 := by
    intro X Y hq he
    have h1 := ed_u_ne (ed_montgomery.1 hq)
    simp only [toEd] at he
    rw [div_eq_one_iff_eq h1] at he
    exact edF_two (by linear_combination -he)
  match P, Q with
  | .zero, .zero => rfl
  | .zero, .some X Y hq => exact absurd (congrArg Prod.snd h).symm (key hq)
  | .some X Y hq, .zero => exact absurd (congrArg Prod.snd h) (key hq)
  | .some X Y hp, .some X' Y' hq =>
    have h1 := ed_montgomery.1 hp
    have h2 := ed_montgomery.1 hq
    have hx := congrArg Prod.fst h
    have hy := congrArg Prod.snd h
    simp only [toEd] at hx hy
    have hX : X = X' := by
      rw [div_eq_div_iff (ed_u_ne h1) (ed_u_ne h2)] at hy
      have : (2 : EdF) * (X - X') = 0 := by linear_combination hy
      rcases mul_eq_zero.1 this with h | h
      · exact absurd h edF_two
      · exact sub_eq_zero.1 h
    subst hX
    by_cases hu : X - ((edWt : ℕ) : EdF) = 0
    · rw [hu] at h1 h2
      have e1 : Y = 0 := by simpa using h1
      have e2 : Y' = 0 := by simpa using h2
      exact sw_some_congr _ _ rfl (e1.trans e2.symm)
    · rw [div_eq_div_iff (ed_v_ne h1 hu) (ed_v_ne h2 hu)] at hx
      exact sw_some_congr _ _ rfl (mul_left_cancel₀ (mul_ne_zero edC_ne hu) hx).symm

/-- Every solution belongs to a point. -/
theorem toEd_surj {x y : EdF} (h : EdEq x y) : ∃ P, toEd P = (x, y) := by
  have hd := edD_eq
  have h664 : (486664 : EdF) ≠ 0 := by simpa using edF_ne (m := 486664) (n := 0) (by decide +kernel)
  have hx0 : y ^ 2 = 1 → x = 0 := by
    intro hy
    rw [EdEq, hy] at h
    have : (1 + edD) * x ^ 2 = 0 := by linear_combination -h
    rcases mul_eq_zero.1 this with h | h
    · have h4 : (4 : EdF) = 0 := by linear_combination (486664 : EdF) * h - hd
      exact absurd (show (2 : EdF) * 2 = 0 by linear_combination h4) (mul_ne_zero edF_two edF_two)
    · exact pow_eq_zero_iff (two_ne_zero) |>.1 h
  by_cases h1 : y = 1
  · exact ⟨.zero, by rw [toEd, hx0 (by rw [h1]; ring), h1]⟩
  by_cases h2 : y = -1
  · have hz : edW.Nonsingular ((edWt : ℕ) : EdF) 0 := ed_montgomery.2 (by simp)
    exact ⟨.some _ _ hz, by rw [toEd, hx0 (by rw [h2]; ring), h2]; simp⟩
  have hy1 : 1 - y ≠ 0 := sub_ne_zero.2 (Ne.symm h1)
  have hy2 : 1 + y ≠ 0 := fun e => h2 (by linear_combination e)
  have hxn : x ≠ 0 := by
    rintro rfl
    rw [EdEq] at h
    have : (1 - y) * (1 + y) = 0 := by linear_combination -h
    exact (mul_ne_zero hy1 hy2) this
  have hc := edC_sq
  have hcn := edC_ne
  generalize hcc : ((edC : ℕ) : EdF) = c at hc hcn
  let u := (1 + y) / (1 - y)
  have hu : u ≠ 0 := div_ne_zero hy2 hy1
  have hm : (c * u / x) ^ 2 = u ^ 3 + 486662 * u ^ 2 + u := by
    simp only [u]
    have e : edD * c ^ 2 = 486660 := by rw [hc]; linear_combination -hd
    rw [EdEq] at h
    field_simp
    have h' : (-x ^ 2 + y ^ 2 - 1) * 486664 = -486660 * x ^ 2 * y ^ 2 := by
      linear_combination 486664 * h + (x ^ 2 * y ^ 2) * hd
    linear_combination (1 - y ^ 2) * hc + h'
  have hn : edW.Nonsingular (u + ((edWt : ℕ) : EdF)) (c * u / x) := ed_montgomery.2 (by rw [add_sub_cancel_right]; exact hm)
  refine ⟨.some _ _ hn, ?_⟩
  rw [toEd, add_sub_cancel_right, hcc, Prod.mk.injEq]
  constructor
  · field_simp
  · simp only [u]
    rw [div_sub_one hy1, div_add_one hy1, div_div_div_cancel_right₀ hy1, show 1 + y + (1 - y) = (2 : EdF) by ring,
      show 1 + y - (1 - y) = 2 * y by ring, mul_div_cancel_left₀ _ edF_two]

/-- Edwards coordinates as a bijection. -/
noncomputable def edEquiv : edW.Point ≃ {q : EdF × EdF // EdEq q.1 q.2} :=
  Equiv.ofBijective (fun P => ⟨toEd P, toEd_eq P⟩)
    ⟨fun _ _ h => toEd_inj (congrArg Subtype.val h), fun q => by
      obtain ⟨P, hP⟩ := toEd_surj q.2
      exact ⟨P, Subtype.ext hP⟩⟩

end Verif
