import Verif.Props.EdForge
import Verif.Props.Default
import Mathlib.GroupTheory.OrderOfElement
import Mathlib.GroupTheory.SpecificGroups.Cyclic

/-!
# The group of Ed25519: C116

The curve has `8 L` points, so a key or the first half of a signature is a multiple of the base point plus one of eight points of
small order.
-/

namespace Verif

open WeierstrassCurve

/-! ### points of small order -/

theorem ed_double {P : edW.Point} {x y : EdF} (hP : toEd P = (x, y)) : toEd (P + P) =
    (2 * x * y / (1 + edD * x ^ 2 * y ^ 2), (x ^ 2 + y ^ 2) / (1 - edD * x ^ 2 * y ^ 2)) ∧
    1 + edD * x ^ 2 * y ^ 2 ≠ 0 ∧ 1 - edD * x ^ 2 * y ^ 2 ≠ 0 := by
  obtain ⟨h1, h2, h3, -⟩ := C100_add P P _ _ _ _ hP hP
  have e : edD * x * x * y * y = edD * x ^ 2 * y ^ 2 := by ring
  rw [e] at h1 h2 h3
  refine ⟨h3.trans (Prod.ext ?_ ?_), h1, h2⟩
  · exact congrArg₂ (· / ·) (by ring) rfl
  · exact congrArg₂ (· / ·) (by ring) rfl

theorem ed_two_zero {P : edW.Point} {x y : EdF} (hP : toEd P = (x, y)) : 2 • P = 0 ↔ x = 0 := by
  rw [two_smul, add_eq_zero_iff_eq_neg]
  have hn := (C100_add P P _ _ _ _ hP hP).2.2.2.2
  constructor
  · intro h
    have h' : (x, y) = (-x, y) := hP.symm.trans ((congrArg toEd h).trans hn)
    have hx : x = -x := congrArg Prod.fst h'
    have : (2 : EdF) * x = 0 := by linear_combination hx
    exact (mul_eq_zero.1 this).resolve_left edF_two
  · intro h
    refine toEd_inj ?_
    rw [hn, hP, h, neg_zero]

theorem ed_four_zero {P : edW.Point} {x y : EdF} (hP : toEd P = (x, y)) : 4 • P = 0 ↔ x = 0 ∨ y = 0 := by
  obtain ⟨h1, h2, -⟩ := ed_double hP
  rw [show 4 • P = 2 • (P + P) by rw [← two_nsmul, ← mul_nsmul], ed_two_zero h1, div_eq_zero_iff, or_iff_left h2, mul_eq_zero,
    mul_eq_zero, or_iff_right edF_two]

theorem ed_eight_zero {P : edW.Point} {x y : EdF} (hP : toEd P = (x, y)) : 8 • P = 0 ↔ x = 0 ∨ y = 0 ∨ x ^ 2 + y ^ 2 = 0 := by
  obtain ⟨h1, h2, h3⟩ := ed_double hP
  rw [show 8 • P = 4 • (P + P) by rw [← two_nsmul, ← mul_nsmul], ed_four_zero h1, div_eq_zero_iff, div_eq_zero_iff, or_iff_left h2,
    or_iff_left h3, mul_eq_zero, mul_eq_zero, or_iff_right edF_two, or_assoc]

/-- Coordinates of a point of order eight. -/
def edX8 : ℕ := 0x1fd5b9a006394a28e933993238de4abb5c193c7013e5e238dea14646c545d14a
def edY8 : ℕ := 0x5fc536d880238b13933c6d305acdfd5f098eff289f4c345b027b2c28f95e826

theorem edXY8_sq : ((edX8 : ℕ) : EdF) ^ 2 + ((edY8 : ℕ) : EdF) ^ 2 = 0 := by
  have := edF_cast (m := edX8 ^ 2 + edY8 ^ 2) (n := 0) (by decide +kernel)
  push_cast at this
  exact this

theorem edY8_eq : edD * ((edY8 : ℕ) : EdF) ^ 4 + 2 * ((edY8 : ℕ) : EdF) ^ 2 = 1 := by
  have h := edF_cast (m := 2 * edY8 ^ 2 * 486664) (n := 486664 + 486660 * edY8 ^ 4) (by decide +kernel)
  push_cast at h
  have h0 : (486664 : EdF) ≠ 0 := by simpa using edF_ne (m := 486664) (n := 0) (by decide +kernel)
  refine mul_left_cancel₀ h0 ?_
  linear_combination h + ((edY8 : ℕ) : EdF) ^ 4 * edD_eq

theorem edT_exists : ∃ T : edW.Point, toEd T = (((edX8 : ℕ) : EdF), ((edY8 : ℕ) : EdF)) :=
  toEd_surj (by
    rw [EdEq]
    linear_combination edY8_eq + (-1 - edD * ((edY8 : ℕ) : EdF) ^ 2) * edXY8_sq)

/-- The point of order eight. -/
noncomputable def edT : edW.Point := edT_exists.choose

theorem edT_coord : toEd edT = (((edX8 : ℕ) : EdF), ((edY8 : ℕ) : EdF)) := edT_exists.choose_spec

theorem edT_order : addOrderOf edT = 8 := by
  refine (addOrderOf_eq_prime_pow (p := 2) (n := 2) ?_ ?_).trans (by norm_num)
  · rw [show 2 ^ 2 = 4 by norm_num, ed_four_zero edT_coord]
    rintro (h | h)
    · exact edF_ne (m := edX8) (n := 0) (by decide +kernel) (by simpa using h)
    · exact edF_ne (m := edY8) (n := 0) (by decide +kernel) (by simpa using h)
  · rw [show 2 ^ (2 + 1) = 8 by norm_num, ed_eight_zero edT_coord]
    exact .inr (.inr edXY8_sq)

theorem edBase_addOrder : addOrderOf edBase = edL := addOrderOf_eq_prime (hp := ⟨edL_prime⟩) edBase_order edBase_ne

theorem ed_gen_order : addOrderOf (edBase + edT) = 8 * edL := by
  rw [(AddCommute.all _ _).addOrderOf_add_eq_mul_addOrderOf_of_coprime, edBase_addOrder, edT_order, mul_comm]
  rw [edBase_addOrder, edT_order]
  decide +kernel

theorem ed_finite : Finite edW.Point := (sw_card_le _ _).1

/-- **The curve has `8 L` points.** -/
theorem card_ed : Nat.card edW.Point = 8 * edL := by
  have := ed_finite
  have h := (sw_card_le (F := EdF) ((edWa : ℕ) : EdF) ((edWb : ℕ) : EdF)).2
  rw [Nat.card_zmod] at h
  obtain ⟨k, hk⟩ := ed_gen_order ▸ addOrderOf_dvd_natCard (edBase + edT)
  have hpos : 0 < Nat.card edW.Point := Nat.card_pos
  have hlt : 2 * edP + 1 < 8 * edL * 2 := by decide +kernel
  have h6 : k < 2 := by
    have : 8 * edL * k < 8 * edL * 2 := by rw [← hk]; exact h.trans_lt hlt
    exact Nat.lt_of_mul_lt_mul_left this
  have h7 : k ≠ 0 := by
    rintro rfl
    rw [hk, mul_zero] at hpos
    exact absurd hpos (lt_irrefl 0)
  rw [hk, show k = 1 by omega, mul_one]

theorem ed_smul_mod (n : ℕ) : (n % edL) • edBase = n • edBase := by
  rw [← edBase_addOrder, mod_addOrderOf_nsmul]

theorem edT_smul_mod (n : ℕ) : (n % 8) • edT = n • edT := by
  rw [← edT_order, mod_addOrderOf_nsmul]

theorem ed_decompose (P : edW.Point) : ∃ a < edL, ∃ j < 8, P = a • edBase + j • edT := by
  have := ed_finite
  have hc : Nat.card (AddSubgroup.zmultiples (edBase + edT)) = Nat.card edW.Point := by
    rw [Nat.card_zmultiples, ed_gen_order, card_ed]
  have htop := AddSubgroup.eq_top_of_card_eq _ hc
  have hP : P ∈ AddSubgroup.zmultiples (edBase + edT) := htop ▸ AddSubgroup.mem_top P
  rw [← mem_multiples_iff_mem_zmultiples] at hP
  obtain ⟨n, hn⟩ := hP
  refine ⟨n % edL, Nat.mod_lt _ (by decide +kernel), n % 8, Nat.mod_lt _ (by norm_num), ?_⟩
  rw [ed_smul_mod, edT_smul_mod, ← nsmul_add]
  exact hn.symm

/-- When such a combination vanishes. -/
theorem ed_combination (a j : ℕ) : a • edBase + j • edT = 0 ↔ edL ∣ a ∧ 8 ∣ j := by
  constructor
  · intro h
    have hT : 8 • edT = 0 := by rw [← edT_order]; exact addOrderOf_nsmul_eq_zero _
    have h8 : (8 * a) • edBase = 0 := by
      have e : 8 • (j • edT) = 0 := by rw [← mul_nsmul, mul_comm, mul_nsmul, hT, nsmul_zero]
      have : 8 • (a • edBase + j • edT) = 0 := by rw [h, nsmul_zero]
      rwa [nsmul_add, e, add_zero, ← mul_nsmul, mul_comm] at this
    have ha : edL ∣ a := by
      rw [← addOrderOf_dvd_iff_nsmul_eq_zero, edBase_addOrder] at h8
      exact (Nat.Coprime.dvd_of_dvd_mul_left (by decide +kernel) h8)
    refine ⟨ha, ?_⟩
    rw [← edBase_addOrder, addOrderOf_dvd_iff_nsmul_eq_zero] at ha
    rw [ha, zero_add, ← addOrderOf_dvd_iff_nsmul_eq_zero, edT_order] at h
    exact h
  · rintro ⟨h1, h2⟩
    rw [← edBase_addOrder, addOrderOf_dvd_iff_nsmul_eq_zero] at h1
    rw [← edT_order, addOrderOf_dvd_iff_nsmul_eq_zero] at h2
    rw [h1, h2, add_zero]

theorem ed_combination_eq (a a' j j' : ℕ) : a • edBase + j • edT = a' • edBase + j' • edT ↔ a ≡ a' [MOD edL] ∧ j ≡ j' [MOD 8] := by
  have hL : edL • edBase = 0 := edBase_order
  have hT : 8 • edT = 0 := by rw [← edT_order]; exact addOrderOf_nsmul_eq_zero _
  have e : ∀ n : ℕ, (n * (edL - 1)) • edBase = -(n • edBase) := by
    intro n
    rw [eq_neg_iff_add_eq_zero, ← add_nsmul, show n * (edL - 1) + n = n * edL by
      rw [Nat.mul_sub, mul_one]; exact Nat.sub_add_cancel (Nat.le_mul_of_pos_right _ (by decide +kernel)), mul_comm, mul_nsmul, hL, nsmul_zero]
  have e' : ∀ n : ℕ, (n * 7) • edT = -(n • edT) := by
    intro n
    rw [eq_neg_iff_add_eq_zero, ← add_nsmul, show n * 7 + n = 8 * n by ring, mul_nsmul, hT, nsmul_zero]
  have h := ed_combination (a + a' * (edL - 1)) (j + j' * 7)
  rw [add_nsmul, add_nsmul, e, e'] at h
  rw [← sub_eq_zero, show a • edBase + j • edT - (a' • edBase + j' • edT) = a • edBase + -(a' • edBase) + (j • edT + -(j' • edT)) by abel, h]
  refine and_congr ?_ ?_
  · rw [← Nat.modEq_zero_iff_dvd]
    constructor
    · intro h0
      have := h0.add_right a'
      have e2 : a + a' * (edL - 1) + a' = a + a' * edL := by
        rw [Nat.mul_sub, mul_one, add_assoc, Nat.sub_add_cancel (Nat.le_mul_of_pos_right _ (by decide +kernel))]
      rw [e2, zero_add] at this
      refine Nat.ModEq.trans ?_ this
      exact (Nat.modEq_iff_dvd' (by omega)).2 (by rw [Nat.add_sub_cancel_left]; exact Dvd.intro_left _ rfl)
    · intro h0
      refine (h0.add_right _).trans ?_
      have e2 : a' + a' * (edL - 1) = a' * edL := by
        rw [Nat.mul_sub, mul_one, Nat.add_sub_cancel' (Nat.le_mul_of_pos_right _ (by decide +kernel))]
      rw [e2]
      exact (Nat.modEq_zero_iff_dvd).2 (Dvd.intro_left _ rfl)
  · rw [Nat.ModEq]
    omega

/-- **C116** (group). The curve has `8 L` points, and every point is in exactly one way a multiple of the base point plus a multiple of
a point of order eight. -/
theorem C116_group : Nat.card edW.Point = 8 * edL ∧ addOrderOf edT = 8 ∧
    ∀ P : edW.Point, ∃! q : ℕ × ℕ, q.1 < edL ∧ q.2 < 8 ∧ P = q.1 • edBase + q.2 • edT := by
  refine ⟨card_ed, edT_order, fun P => ?_⟩
  obtain ⟨a, ha, j, hj, rfl⟩ := ed_decompose P
  refine ⟨(a, j), ⟨ha, hj, rfl⟩, ?_⟩
  rintro ⟨a', j'⟩ ⟨ha', hj', h⟩
  obtain ⟨h1, h2⟩ := (ed_combination_eq _ _ _ _).1 h
  exact Prod.ext (h1.eq_of_lt_of_lt ha ha').symm (h2.eq_of_lt_of_lt hj hj').symm

/-! ### byte strings of points of small order -/

theorem edD_ne : 1 + edD ≠ 0 := by
  intro h
  have h4 : (4 : EdF) = 0 := by linear_combination (486664 : EdF) * h - edD_eq
  exact mul_ne_zero edF_two edF_two (by linear_combination h4)

theorem edD_ne_zero : edD ≠ 0 := fun h => edD_not_square 0 (by rw [h]; simp)

theorem ed_sq_ne {x y : EdF} (h : EdEq x y) : 1 + edD * y ^ 2 ≠ 0 := by
  intro h0
  rw [EdEq] at h
  have hy : y ^ 2 = 1 := by linear_combination h + x ^ 2 * h0
  rw [hy, mul_one] at h0
  exact edD_ne h0

theorem edY8_other (y : EdF) : edD * (y ^ 2 + ((edY8 : ℕ) : EdF) ^ 2) + 2 ≠ 0 := by
  intro h
  refine not_square (a := 0x825f0004a7eb121e710d213aa2bc52e7d64b49ac61cb6a005f6898cc856bcc3) (by decide +kernel) (by decide +kernel) y ?_
  have e := edF_cast (m := 486660 * (0x825f0004a7eb121e710d213aa2bc52e7d64b49ac61cb6a005f6898cc856bcc3 + edY8 ^ 2)) (n := 2 * 486664)
    (by decide +kernel)
  have h0 : (486660 : EdF) ≠ 0 := by simpa using edF_ne (m := 486660) (n := 0) (by decide +kernel)
  refine mul_left_cancel₀ h0 ?_
  rw [Nat.cast_mul, Nat.cast_add, Nat.cast_pow, Nat.cast_mul] at e
  generalize ((0x825f0004a7eb121e710d213aa2bc52e7d64b49ac61cb6a005f6898cc856bcc3 : ℕ) : EdF) = c at e ⊢
  push_cast at e
  linear_combination -(486664 : EdF) * h - e + (y ^ 2 + ((edY8 : ℕ) : EdF) ^ 2) * edD_eq

theorem ed_small_y {x y : EdF} (h : EdEq x y) : (x = 0 ∨ y = 0 ∨ x ^ 2 + y ^ 2 = 0) ↔
    y = 0 ∨ y = 1 ∨ y = -1 ∨ y = ((edY8 : ℕ) : EdF) ∨ y = -((edY8 : ℕ) : EdF) := by
  have hne := ed_sq_ne h
  have h' := h
  rw [EdEq] at h'
  constructor
  · rintro (h0 | h0 | h0)
    · rw [h0] at h'
      have : y ^ 2 = 1 := by linear_combination h'
      rcases sq_eq_sq_iff_eq_or_eq_neg.1 (this.trans (one_pow 2).symm) with h | h <;> simp [h]
    · exact .inl h0
    · have e : (y ^ 2 - ((edY8 : ℕ) : EdF) ^ 2) * (edD * (y ^ 2 + ((edY8 : ℕ) : EdF) ^ 2) + 2) = 0 := by
        linear_combination h' + (1 + edD * y ^ 2) * h0 - edY8_eq
      rcases mul_eq_zero.1 e with e | e
      · rcases sq_eq_sq_iff_eq_or_eq_neg.1 (sub_eq_zero.1 e) with h | h <;> simp [h]
      · exact absurd e (edY8_other y)
  · have hy8 : y ^ 2 = ((edY8 : ℕ) : EdF) ^ 2 → x ^ 2 + y ^ 2 = 0 := by
      intro e
      have e8 : edD * (y ^ 2) ^ 2 + 2 * y ^ 2 = 1 := by rw [e]; linear_combination edY8_eq
      refine (mul_eq_zero.1 (show (1 + edD * y ^ 2) * (x ^ 2 + y ^ 2) = 0 by linear_combination e8 - h')).resolve_left hne
    have h1 : y ^ 2 = 1 → x = 0 := by
      intro e
      rw [e] at h'
      have : (1 + edD) * x ^ 2 = 0 := by linear_combination -h'
      exact pow_eq_zero_iff (two_ne_zero) |>.1 ((mul_eq_zero.1 this).resolve_left edD_ne)
    rintro (h0 | h0 | h0 | h0 | h0)
    · exact .inr (.inl h0)
    · exact .inl (h1 (by rw [h0]; ring))
    · exact .inl (h1 (by rw [h0]; ring))
    · exact .inr (.inr (hy8 (by rw [h0])))
    · exact .inr (.inr (hy8 (by rw [h0]; ring)))

theorem edDecompress_isSome (b : Bytes 32) : (edDecompress b).isSome = true ↔ ∃ x, EdEq x ((Codec.leVal b.1 % 2 ^ 255 : ℕ) : EdF) := by
  constructor
  · intro h
    obtain ⟨P, hP⟩ := Option.isSome_iff_exists.1 h
    rw [edDecompress_iff] at hP
    exact ⟨(toEd P).1, hP.1 ▸ toEd_eq P⟩
  · rintro ⟨x, hx⟩
    rw [edDecompress, edPoint, dif_pos]
    · rfl
    · by_cases h0 : x.val % 2 = 0
      · exact ⟨x, hx, h0⟩
      · refine ⟨-x, hx.neg, ?_⟩
        have hne : x ≠ 0 := by rintro rfl; exact h0 (by simp)
        rw [edF_neg_bit hne]
        omega

theorem ed_cast_iff {v c : ℕ} (hv : v < 2 ^ 255) (hc : c < edP) : (v : EdF) = (c : EdF) ↔ v = c ∨ v = c + edP := by
  rw [ZMod.natCast_eq_natCast_iff', Nat.mod_eq_of_lt hc]
  have hp : edP = 2 ^ 255 - 19 := rfl
  rw [hp] at hc ⊢
  omega

/-- The `y` coordinates of points of small order, as they may be written in 255 bits. -/
def Spec.smallY : List ℕ := [0, 1,
  0x05fc536d880238b13933c6d305acdfd5f098eff289f4c345b027b2c28f95e826, 0x7a03ac9277fdc74ec6cc392cfa53202a0f67100d760b3cba4fd84d3d706a17c7,
  2 ^ 255 - 20, 2 ^ 255 - 19, 2 ^ 255 - 18]

theorem small_cast {v : ℕ} (hv : v < 2 ^ 255) : ((v : EdF) = 0 ∨ (v : EdF) = 1 ∨ (v : EdF) = -1 ∨ (v : EdF) = ((edY8 : ℕ) : EdF) ∨
    (v : EdF) = -((edY8 : ℕ) : EdF)) ↔ v ∈ Spec.smallY := by
  have h0 := ed_cast_iff hv (c := 0) (by decide +kernel)
  have h1 := ed_cast_iff hv (c := 1) (by decide +kernel)
  have h2 := ed_cast_iff hv (c := edP - 1) (by decide +kernel)
  have h3 := ed_cast_iff hv (c := edY8) (by decide +kernel)
  have h4 := ed_cast_iff hv (c := edP - edY8) (by decide +kernel)
  have hp : ((edP : ℕ) : EdF) = 0 := ZMod.natCast_self edP
  rw [Nat.cast_sub (by decide +kernel), hp, zero_sub] at h2 h4
  rw [Nat.cast_zero] at h0
  rw [Nat.cast_one] at h1 h2
  rw [h0, h1, h2, h3, h4]
  simp only [Spec.smallY, List.mem_cons, List.not_mem_nil, or_false]
  have e1 : edP = 2 ^ 255 - 19 := rfl
  have e2 : edY8 = 0x05fc536d880238b13933c6d305acdfd5f098eff289f4c345b027b2c28f95e826 := rfl
  have e3 : edP - edY8 = 0x7a03ac9277fdc74ec6cc392cfa53202a0f67100d760b3cba4fd84d3d706a17c7 := by decide +kernel
  rw [e3, e2, e1]
  omega

/-- **C116** (small order). A byte string is read as a point of small order exactly if its lower 255 bits are one of seven numbers. -/
theorem C116_small (b : Bytes 32) : (∃ P, edDecompress b = some P ∧ 8 • P = 0) ↔ Codec.leVal b.1 % 2 ^ 255 ∈ Spec.smallY := by
  have hv : Codec.leVal b.1 % 2 ^ 255 < 2 ^ 255 := Nat.mod_lt _ (by positivity)
  rw [← small_cast hv]
  constructor
  · rintro ⟨P, hP, h8⟩
    rw [edDecompress_iff] at hP
    rw [← hP.1]
    exact (ed_small_y (toEd_eq P)).1 ((ed_eight_zero (Prod.mk.eta).symm).1 h8)
  · intro h
    have hx : ∃ x, EdEq x ((Codec.leVal b.1 % 2 ^ 255 : ℕ) : EdF) := by
      generalize ((Codec.leVal b.1 % 2 ^ 255 : ℕ) : EdF) = y at h
      rcases h with h | h | h | h | h
      · refine ⟨((edI : ℕ) : EdF), ?_⟩
        rw [h, EdEq, edI_sq]; ring
      · exact ⟨0, by rw [h, EdEq]; ring⟩
      · exact ⟨0, by rw [h, EdEq]; ring⟩
      · exact ⟨((edX8 : ℕ) : EdF), by rw [h]; have := toEd_eq edT; rwa [edT_coord] at this⟩
      · refine ⟨((edX8 : ℕ) : EdF), ?_⟩
        have := toEd_eq edT
        rw [edT_coord] at this
        rw [h, EdEq, neg_sq]
        exact this
    obtain ⟨P, hP⟩ := Option.isSome_iff_exists.1 ((edDecompress_isSome b).2 hx)
    refine ⟨P, hP, ?_⟩
    rw [edDecompress_iff] at hP
    rw [ed_eight_zero (Prod.mk.eta).symm, ed_small_y (toEd_eq P), hP.1]
    exact h

/-! ### how many byte strings are keys -/

theorem card_mod (n : ℕ) (p : ℕ → Prop) : Nat.card {x : Fin (2 * n) // p (x % n)} = 2 * Nat.card {v : Fin n // p v} := by
  have e : {q : Fin 2 × Fin n // p q.2} ≃ {x : Fin (2 * n) // p (x % n)} := by
    refine Equiv.subtypeEquiv finProdFinEquiv fun q => ?_
    have : (finProdFinEquiv q : ℕ) = q.2 + n * q.1 := rfl
    rw [this, Nat.add_mul_mod_self_left, Nat.mod_eq_of_lt q.2.2]
  have e' : {q : Fin 2 × Fin n // p q.2} ≃ Fin 2 × {v : Fin n // p v} :=
    ⟨fun q => (q.1.1, ⟨q.1.2, q.2⟩), fun q => ⟨(q.1, q.2.1), q.2.2⟩, fun _ => rfl, fun _ => rfl⟩
  rw [← Nat.card_congr e, Nat.card_congr e', Nat.card_prod, Nat.card_fin]

theorem card_splitBytes (p : ℕ → Prop) : Nat.card {b : Bytes 32 // p (Codec.leVal b.1 % 2 ^ 255)} = 2 * Nat.card {v : Fin (2 ^ 255) // p v} := by
  have hn : 256 ^ 32 = 2 * 2 ^ 255 := by norm_num
  rw [← card_mod]
  refine Nat.card_congr (Equiv.subtypeEquiv ((bytesEquiv 32).trans (finCongr hn)) fun b => ?_)
  exact Iff.rfl

/-- The numbers below `2^255` with a property that depends on the class modulo `p`: one for each class, and nineteen classes twice. -/
theorem card_classes (n : ℕ) [NeZero n] (m : ℕ) (p : ZMod n → Prop) : Nat.card {v : Fin (n + m) // p ((v : ℕ) : ZMod n)} =
    Nat.card {y : ZMod n // p y} + Nat.card {v : Fin m // p ((v : ℕ) : ZMod n)} := by
  have e : {q : Fin n ⊕ Fin m // p ((finSumFinEquiv q : ℕ) : ZMod n)} ≃ {v : Fin (n + m) // p ((v : ℕ) : ZMod n)} :=
    Equiv.subtypeEquiv finSumFinEquiv fun q => Iff.rfl
  rw [← Nat.card_congr e, Nat.card_congr Equiv.subtypeSum, Nat.card_sum]
  congr 1
  · let e' : Fin n ≃ ZMod n := ⟨fun v => ((v : ℕ) : ZMod n), fun y => ⟨y.val, ZMod.val_lt y⟩,
      fun v => Fin.ext (ZMod.val_natCast_of_lt v.2), fun y => ZMod.natCast_zmod_val y⟩
    refine Nat.card_congr (Equiv.subtypeEquiv e' fun q => ?_)
    simp [e']
  · refine Nat.card_congr (Equiv.subtypeEquiv (Equiv.refl _) fun q => ?_)
    simp

/-- The numbers that are `y` coordinates. -/
def EdY (y : EdF) : Prop := ∃ x, EdEq x y

theorem edY_of {x y : ℕ} (h : (y ^ 2 * 486664 + 486660 * x ^ 2 * y ^ 2) % edP = (486664 + 486664 * x ^ 2) % edP) : EdY (y : EdF) := by
  have e := edF_cast h
  push_cast at e
  have h0 : (486664 : EdF) ≠ 0 := by simpa using edF_ne (m := 486664) (n := 0) (by decide +kernel)
  refine ⟨(x : EdF), mul_left_cancel₀ h0 ?_⟩
  linear_combination e - (x : EdF) ^ 2 * (y : EdF) ^ 2 * edD_eq

theorem not_edY {y a : ℕ} (ha : (a + 486664 * 486660 * y ^ 2 * (y ^ 2 - 1)) % edP = 486664 ^ 2 * (y ^ 2 - 1) % edP)
    (h : powMod edP 255 a ((edP - 1) / 2) % edP ≠ 1) (h0 : a % edP ≠ 0) (hy : 1 ≤ y) : ¬ EdY (y : EdF) := by
  rintro ⟨x, hx⟩
  rw [EdEq] at hx
  have e := edF_cast ha
  push_cast [Nat.cast_sub (Nat.one_le_pow 2 y hy)] at e
  have hx' : (486664 - 486660 * (y : EdF) ^ 2) * x ^ 2 = 486664 * ((y : EdF) ^ 2 - 1) := by
    linear_combination -(486664 : EdF) * hx - x ^ 2 * (y : EdF) ^ 2 * edD_eq
  refine not_square h h0 ((486664 - 486660 * (y : EdF) ^ 2) * x) ?_
  linear_combination (486664 - 486660 * (y : EdF) ^ 2) * hx' - e

theorem edY_small (v : Fin 19) : EdY ((v : ℕ) : EdF) ↔ v.1 ∈ [0, 1, 3, 4, 5, 6, 9, 10, 14, 15, 16, 18] := by
  obtain ⟨v, hv⟩ := v
  show EdY ((v : ℕ) : EdF) ↔ v ∈ _
  interval_cases v
  · exact iff_of_true (edY_of (x := 0x2b8324804fc1df0b2b4d00993dfbd7a72f431806ad2fe478c4ee1b274a0ea0b0) (by decide +kernel)) (by decide)
  · exact iff_of_true (edY_of (x := 0x0) (by decide +kernel)) (by decide)
  · exact iff_of_false (not_edY (a := 0x7ffffffffffffffffffffffffffffffffffffffffffffffffffffe0fb5861f2d) (by decide +kernel) (by decide +kernel) (by decide +kernel) (by decide)) (by decide)
  · exact iff_of_true (edY_of (x := 0x68febfd42613608ef448af58b1ef28311c0d964bdd30bc07fef6e61f01ae05e2) (by decide +kernel)) (by decide)
  · exact iff_of_true (edY_of (x := 0x461721fdd7bc15bebcb6dfffe7938bcfc76b9b9b2012bb2bd20c79f4065ba5bf) (by decide +kernel)) (by decide)
  · exact iff_of_true (edY_of (x := 0x57aff1011be28eefd5ecc8591c2f739afed342ba1824922f2b2f4072bfefa2a2) (by decide +kernel)) (by decide)
  · exact iff_of_true (edY_of (x := 0x61aca558adbb11b7c524375ea96dd2736eb6fe53643d33e22d3851b749ca8846) (by decide +kernel)) (by decide)
  · exact iff_of_false (not_edY (a := 0x7ffffffffffffffffffffffffffffffffffffffffffffffffffe0fb53294a5ed) (by decide +kernel) (by decide +kernel) (by decide +kernel) (by decide)) (by decide)
  · exact iff_of_false (not_edY (a := 0x7ffffffffffffffffffffffffffffffffffffffffffffffffffca90f21d947ad) (by decide +kernel) (by decide +kernel) (by decide +kernel) (by decide)) (by decide)
  · exact iff_of_true (edY_of (x := 0x2e6c8264fea9d66c6500844c12ef76c306686b183a9141b4fcaba1a10a1ae008) (by decide +kernel)) (by decide)
  · exact iff_of_true (edY_of (x := 0x496afca817d755bbd1c4d77226f46910aeafde66fd95e373c07200bb4d3f06e3) (by decide +kernel)) (by decide)
  · exact iff_of_false (not_edY (a := 0x7ffffffffffffffffffffffffffffffffffffffffffffffffff3e22c673e66ed) (by decide +kernel) (by decide +kernel) (by decide +kernel) (by decide)) (by decide)
  · exact iff_of_false (not_edY (a := 0x7fffffffffffffffffffffffffffffffffffffffffffffffffeecb30db4f05ad) (by decide +kernel) (by decide +kernel) (by decide +kernel) (by decide)) (by decide)
  · exact iff_of_false (not_edY (a := 0x7fffffffffffffffffffffffffffffffffffffffffffffffffe8406b7ae16ced) (by decide +kernel) (by decide +kernel) (by decide +kernel) (by decide)) (by decide)
  · exact iff_of_true (edY_of (x := 0x7069f5a9f003094abe2f40803571139208f076f273ba441e58bdb89d6c283109) (by decide +kernel)) (by decide)
  · exact iff_of_true (edY_of (x := 0x7b37543e6868ddeb2b24d440e3f0215e5e3676a077a9de2e1530ac9eea234018) (by decide +kernel)) (by decide)
  · exact iff_of_true (edY_of (x := 0x434315d1299bae8b180fe4f807b4a19c0622fa4be59eb99e4afa590391323370) (by decide +kernel)) (by decide)
  · exact iff_of_false (not_edY (a := 0x7fffffffffffffffffffffffffffffffffffffffffffffffffba357a75d223ed) (by decide +kernel) (by decide +kernel) (by decide +kernel) (by decide)) (by decide)
  · exact iff_of_true (edY_of (x := 0x372c8c265033bde4ac31a02e8603e318807267178b902c228b364585ed1cf028) (by decide +kernel)) (by decide)

theorem card_edY : Nat.card {y : EdF // EdY y} = 4 * edL + 1 := by
  have hfin := ed_finite
  have hq : Nat.card {q : EdF × EdF // EdEq q.1 q.2} = 8 * edL := by rw [← Nat.card_congr edEquiv, card_ed]
  let g : {q : EdF × EdF // EdEq q.1 q.2} → {y : EdF // EdY y} × Fin 2 := fun q => (⟨q.1.2, q.1.1, q.2⟩, ⟨q.1.1.val % 2, Nat.mod_lt _ (by norm_num)⟩)
  have hg : Function.Injective g := by
    rintro ⟨⟨x, y⟩, h⟩ ⟨⟨x', y'⟩, h'⟩ e
    have e1 : y = y' := congrArg (fun z => z.1.1) e
    have e2 : x.val % 2 = x'.val % 2 := congrArg (fun z => z.2.1) e
    subst e1
    exact Subtype.ext (Prod.ext (ed_root_unique h h' e2) rfl)
  have y1 : EdY 1 := ⟨0, by rw [EdEq]; ring⟩
  have y2 : EdY (-1) := ⟨0, by rw [EdEq]; ring⟩
  have hc : (Set.range g)ᶜ = {(⟨1, y1⟩, 1), (⟨-1, y2⟩, 1)} := by
    ext ⟨⟨y, x, h⟩, s⟩
    simp only [Set.mem_compl_iff, Set.mem_range, Set.mem_insert_iff, Set.mem_singleton_iff, Prod.mk.injEq]
    constructor
    · intro hn
      have hx0 : x = 0 := by
        by_contra hx
        by_cases hb : x.val % 2 = s.1
        · exact hn ⟨⟨(x, y), h⟩, Prod.ext rfl (Fin.ext hb)⟩
        · refine hn ⟨⟨(-x, y), h.neg⟩, Prod.ext rfl (Fin.ext ?_)⟩
          show (-x).val % 2 = s.1
          rw [edF_neg_bit hx]
          have := s.2
          omega
      subst hx0
      have hs : s = 1 := by
        by_contra hs
        refine hn ⟨⟨(0, y), h⟩, Prod.ext rfl (Fin.ext ?_)⟩
        show (0 : EdF).val % 2 = s.1
        rw [ZMod.val_zero]
        have h1 := s.2
        have h2 : s.1 ≠ 1 := fun e => hs (Fin.ext e)
        omega
      rw [EdEq] at h
      have : y ^ 2 = 1 ^ 2 := by linear_combination h
      rcases sq_eq_sq_iff_eq_or_eq_neg.1 this with e | e
      · exact .inl ⟨Subtype.ext e, hs⟩
      · exact .inr ⟨Subtype.ext e, hs⟩
    · rintro hy ⟨⟨⟨x', y'⟩, h'⟩, e⟩
      have e1 : y' = y := congrArg (fun z => z.1.1) e
      have e2 : x'.val % 2 = s.1 := congrArg (fun z => z.2.1) e
      have hs : s = 1 := by rcases hy with hy | hy <;> exact hy.2
      have hy' : y = 1 ∨ y = -1 := hy.imp (fun h => congrArg Subtype.val h.1) (fun h => congrArg Subtype.val h.1)
      subst e1
      have hx : x' = 0 := by
        have hy2 : y' ^ 2 = 1 := by rcases hy' with e | e <;> rw [e] <;> ring
        rw [EdEq, hy2] at h'
        have : (1 + edD) * x' ^ 2 = 0 := by linear_combination -h'
        exact pow_eq_zero_iff two_ne_zero |>.1 ((mul_eq_zero.1 this).resolve_left edD_ne)
      rw [hx, hs, ZMod.val_zero] at e2
      exact absurd e2 (by decide)
  have h := Set.ncard_add_ncard_compl (Set.range g)
  rw [hc, Set.ncard_pair, ← Set.image_univ, Set.ncard_image_of_injective _ hg, Set.ncard_univ, hq, Nat.card_prod, Nat.card_fin] at h
  · omega
  · intro e
    have : (1 : EdF) = -1 := congrArg (fun z => z.1.1) e
    exact edF_two (by linear_combination this)

/-- **C116** (keys). Exactly `8 L + 26` of the `2^256` byte strings are read as a point, and 14 of them as a point of small order. -/
theorem C116_keys : Nat.card {b : Bytes 32 // (edDecompress b).isSome} = 8 * edL + 26 ∧
    Nat.card {b : Bytes 32 // ∃ P, edDecompress b = some P ∧ 8 • P = 0} = 14 := by
  have hp : 2 ^ 255 = edP + 19 := by decide +kernel
  constructor
  · simp only [edDecompress_isSome]
    refine (card_splitBytes fun v => EdY (v : EdF)).trans ?_
    have : Nat.card {v : Fin (2 ^ 255) // EdY ((v : ℕ) : EdF)} = Nat.card {v : Fin (edP + 19) // EdY ((v : ℕ) : EdF)} := by rw [hp]
    rw [this, card_classes edP 19 EdY, card_edY, Nat.card_congr (Equiv.subtypeEquivRight edY_small), Nat.card_eq_fintype_card,
      show Fintype.card {v : Fin 19 // v.1 ∈ [0, 1, 3, 4, 5, 6, 9, 10, 14, 15, 16, 18]} = 12 from by decide]
    ring
  · simp only [C116_small]
    refine (card_splitBytes fun v => v ∈ Spec.smallY).trans ?_
    have e : {v : Fin (2 ^ 255) // (v : ℕ) ∈ Spec.smallY} ≃ {v : ℕ // v ∈ Spec.smallY.toFinset} :=
      ⟨fun v => ⟨v.1, List.mem_toFinset.2 v.2⟩, fun v => ⟨⟨v.1, (by decide +kernel : ∀ v ∈ Spec.smallY, v < 2 ^ 255) _ (List.mem_toFinset.1 v.2)⟩,
        List.mem_toFinset.1 v.2⟩, fun _ => rfl, fun _ => rfl⟩
    rw [Nat.card_congr e, Nat.card_eq_fintype_card, Fintype.card_coe, List.card_toFinset, List.Nodup.dedup (by decide +kernel)]
    rfl

/-! ### `verify` and `verify_batch` in exponents -/

section
variable (sha : List UInt8 → Bytes 64) (zs : List (List UInt8) → List (Bytes 64) → List (Bytes 32) → ℕ → ℕ)

/-- The challenge of a vote. -/
def Spec.edK (d : Digest) (v : PublicKey × Signature) : ℕ := Codec.leVal (sha (v.2.part1.1 ++ (v.1.bytes.1 ++ d.bytes.1))).1 % edL

theorem ed_eight_combination (a j : ℕ) : 8 • (a • edBase + j • edT) = 0 ↔ edL ∣ a := by
  have : 8 • (a • edBase + j • edT) = (8 * a) • edBase + (8 * j) • edT := by
    rw [nsmul_add, ← mul_nsmul, ← mul_nsmul, mul_comm a, mul_comm j]
  rw [this, ed_combination, and_iff_left (Nat.dvd_mul_right 8 j)]
  exact ⟨fun h => Nat.Coprime.dvd_of_dvd_mul_left (by decide +kernel) h, fun h => h.mul_left 8⟩

/-- **C116** (`Signature::verify`). For the key `a B + u T` and the first half `r B + w T` a signature is accepted exactly if its number
`s` is reduced, `a` and `r` are not zero modulo `L`, and `s = r + k a` modulo `L` and `w + k u = 0` modulo 8. -/
theorem C116_verify (sig : Signature) (d : Digest) (pk : PublicKey) (a u r w : ℕ)
    (hA : edDecompress pk.bytes = some (a • edBase + u • edT)) (hR : edDecompress sig.part1 = some (r • edBase + w • edT)) :
    Signature.verify ((ed25519 sha).ops zs) sig d pk = .ok () ↔
      Codec.leVal sig.part2.1 < edL ∧ ¬ edL ∣ a ∧ ¬ edL ∣ r ∧
      Codec.leVal sig.part2.1 ≡ r + Spec.edK sha d (pk, sig) * a [MOD edL] ∧ w + Spec.edK sha d (pk, sig) * u ≡ 0 [MOD 8] := by
  have h1 : (ed25519 sha).decompress = edDecompress := by rw [ed25519]
  have h2 : (ed25519 sha).base = edBase := by rw [ed25519]
  have h3 : (ed25519 sha).sha512 = sha := by rw [ed25519]
  have hk : EdCurve.wide (sha (sig.part1.1 ++ (pk.bytes.1 ++ d.bytes.1))) = Spec.edK sha d (pk, sig) := rfl
  rw [C97_verify, Spec.EdValid, h1, h3, hk]
  generalize Spec.edK sha d (pk, sig) = k
  have heq : Spec.EdEquation (ed25519 sha) (Codec.leVal sig.part2.1) k (r • edBase + w • edT) (a • edBase + u • edT) ↔
      Codec.leVal sig.part2.1 ≡ r + k * a [MOD edL] ∧ w + k * u ≡ 0 [MOD 8] := by
    rw [Spec.EdEquation, h2]
    have e : r • edBase + w • edT + k • (a • edBase + u • edT) = (r + k * a) • edBase + (w + k * u) • edT := by
      rw [nsmul_add, ← mul_nsmul, ← mul_nsmul, mul_comm a, mul_comm u, add_nsmul, add_nsmul]
      abel
    have e' : ∀ s : ℕ, s • edBase = s • edBase + 0 • edT := fun s => by rw [zero_nsmul, add_zero]
    rw [e, e', ed_combination_eq]
    exact and_congr Iff.rfl ⟨Nat.ModEq.symm, Nat.ModEq.symm⟩
  constructor
  · rintro ⟨R, A, hR', hA', hs, h8R, h8A, he⟩
    obtain rfl := Option.some.inj (hR.symm.trans hR')
    obtain rfl := Option.some.inj (hA.symm.trans hA')
    rw [Ne, ed_eight_combination] at h8R h8A
    exact ⟨hs, h8A, h8R, heq.1 he⟩
  · rintro ⟨hs, ha, hr, he⟩
    refine ⟨_, _, hR, hA, hs, ?_, ?_, heq.2 he⟩
    · rw [Ne, ed_eight_combination]; exact hr
    · rw [Ne, ed_eight_combination]; exact ha

theorem sum_comb {E : Type} [AddCommGroup E] (B T : E) {n : ℕ} (x y s : Fin n → ℕ) :
    ∑ i, (x i • B + y i • T - s i • B) = (∑ i, x i) • B + (∑ i, y i) • T - (∑ i, s i) • B := by
  rw [Finset.sum_sub_distrib, Finset.sum_add_distrib, Finset.sum_smul, Finset.sum_smul, Finset.sum_smul]

theorem EdCurve.batchSum_terms {E : Type} [AddCommGroup E] (C : EdCurve E) (z : ℕ → ℕ) {V : Type} (m : V → EdCurve.Vote) :
    ∀ (vs : List V) (o : ℕ) (t : Fin vs.length → E), (∀ i : Fin vs.length, C.batchTerm (z (o + i)) (m vs[i]) = some (t i)) →
      C.batchSum z o (vs.map m) = some (∑ i, t i)
  | [], o, t, _ => rfl
  | v :: vs, o, t, h => by
    have ih := batchSum_terms C z m vs (o + 1) (fun i => t i.succ) (fun i => by
      have := h i.succ
      rw [show o + (i.succ : ℕ) = o + 1 + i by rw [Fin.val_succ]; omega] at this
      exact this)
    have h0 : C.batchTerm (z o) (m v) = some (t (0 : Fin (vs.length + 1))) := h (0 : Fin (vs.length + 1))
    rw [List.map_cons, EdCurve.batchSum, h0, ih]
    exact congrArg some (Fin.sum_univ_succ (n := vs.length) t).symm

theorem comb_term {E : Type} [AddCommGroup E] (B T : E) (z m r w a u : ℕ) : z • (r • B + w • T) + m • (a • B + u • T) =
    (z * r + m * a) • B + (z * w + m * u) • T := by
  rw [smul_add, smul_add, smul_smul, smul_smul, smul_smul, smul_smul, add_smul, add_smul]
  abel

theorem EdCurve.batchTerm_comb {E : Type} [AddCommGroup E] (C : EdCurve E) (T : E) (z a u r w : ℕ) (msg : List UInt8) (sig : Signature) (pk : PublicKey)
    (hA : C.decompress pk.bytes = some (a • C.base + u • T)) (hR : C.decompress sig.part1 = some (r • C.base + w • T)) :
    C.batchTerm z (msg, sig.flatten, pk.bytes) = some ((z * r + C.challenge sig.part1.1 pk.bytes.1 msg * z % edL * a) • C.base +
      (z * w + C.challenge sig.part1.1 pk.bytes.1 msg * z % edL * u) • T - (z * Codec.leVal sig.part2.1 % edL) • C.base) := by
  simp only [EdCurve.batchTerm, Signature.flatten, EdCurve.fst32_append, EdCurve.sOf_append, hA, hR, comb_term]

theorem batch_sum (d : Digest) (z : ℕ → ℕ) (votes : List (PublicKey × Signature)) (a u r w : Fin votes.length → ℕ)
    (h : ∀ i, edDecompress votes[i].1.bytes = some (a i • edBase + u i • edT) ∧
      edDecompress votes[i].2.part1 = some (r i • edBase + w i • edT)) :
    (ed25519 sha).batchSum z 0 (Spec.votesOf d votes) = some
      ((∑ i : Fin votes.length, (z i * r i + (Spec.edK sha d votes[i] * z i % edL) * a i)) • edBase +
        (∑ i : Fin votes.length, (z i * w i + (Spec.edK sha d votes[i] * z i % edL) * u i)) • edT -
        (∑ i : Fin votes.length, (z i * Codec.leVal votes[i].2.part2.1 % edL)) • edBase) := by
  have h1 : (ed25519 sha).decompress = edDecompress := by rw [ed25519]
  have h2 : (ed25519 sha).base = edBase := by rw [ed25519]
  have h3 : (ed25519 sha).sha512 = sha := by rw [ed25519]
  rw [← sum_comb]
  refine EdCurve.batchSum_terms (ed25519 sha) z (fun v : PublicKey × Signature => (d.bytes.1, v.2.flatten, v.1.bytes)) votes 0 _ fun i => ?_
  have ht := EdCurve.batchTerm_comb (ed25519 sha) edT (z (0 + i)) (a i) (u i) (r i) (w i) d.bytes.1 votes[i].2 votes[i].1
    (by rw [h1, h2]; exact (h i).1) (by rw [h1, h2]; exact (h i).2)
  have hk : (ed25519 sha).challenge votes[i].2.part1.1 votes[i].1.bytes.1 d.bytes.1 = Spec.edK sha d votes[i] := by
    rw [EdCurve.challenge, h3, EdCurve.wide, Spec.edK]
  rw [hk, h2, zero_add] at ht
  rw [zero_add]
  exact ht

theorem modEq_sum {n N : ℕ} {f g : Fin n → ℕ} (h : ∀ i, f i ≡ g i [MOD N]) : ∑ i, f i ≡ ∑ i, g i [MOD N] := by
  induction n with
  | zero => rfl
  | succ n ih =>
    rw [Fin.sum_univ_succ, Fin.sum_univ_succ]
    exact (h 0).add (ih fun i => h i.succ)

/-- **C116** (`verify_batch`). For votes with keys `aᵢ B + uᵢ T` and first halves `rᵢ B + wᵢ T` a batch is accepted with weights `zᵢ` exactly
if all `sᵢ` are reduced, the weighted sums of `rᵢ + kᵢ aᵢ` and of `sᵢ` agree modulo `L`, and `Σ zᵢ wᵢ + (kᵢ zᵢ mod L) uᵢ = 0` modulo 8. -/
theorem C116_batch (d : Digest) (votes : List (PublicKey × Signature)) (a u r w : Fin votes.length → ℕ)
    (h : ∀ i, edDecompress votes[i].1.bytes = some (a i • edBase + u i • edT) ∧
      edDecompress votes[i].2.part1 = some (r i • edBase + w i • edT)) :
    let z := zs (List.replicate votes.length d.bytes.1) (votes.map fun v => v.2.flatten) (votes.map fun v => v.1.bytes)
    Signature.verifyBatch ((ed25519 sha).ops zs) d votes = .ok () ↔
      (∀ v ∈ votes, Codec.leVal v.2.part2.1 < edL) ∧
      ∑ i : Fin votes.length, z i * (r i + Spec.edK sha d votes[i] * a i) ≡
        ∑ i : Fin votes.length, z i * Codec.leVal votes[i].2.part2.1 [MOD edL] ∧
      ∑ i : Fin votes.length, (z i * w i + Spec.edK sha d votes[i] * z i % edL * u i) ≡ 0 [MOD 8] := by
  intro z
  have h1 : (ed25519 sha).decompress = edDecompress := by rw [ed25519]
  rw [verifyBatch_iff, batch_sum sha d _ votes a u r w h, Option.some.injEq, sub_eq_zero, h1]
  have e' : ∀ s : ℕ, s • edBase = s • edBase + 0 • edT := fun s => by rw [zero_nsmul, add_zero]
  rw [e' (∑ i : Fin votes.length, _ % edL), ed_combination_eq]
  have hd : ∀ v ∈ votes, (edDecompress v.1.bytes).isSome = true := by
    intro v hv
    obtain ⟨i, hi, rfl⟩ := List.getElem_of_mem hv
    exact Option.isSome_iff_exists.2 ⟨_, (h ⟨i, hi⟩).1⟩
  refine and_congr ⟨fun h v hv => (h v hv).1, fun h v hv => ⟨h v hv, hd v hv⟩⟩ (and_congr ?_ ?_)
  · have hl : ∑ i : Fin votes.length, (z i * r i + Spec.edK sha d votes[i] * z i % edL * a i) ≡
        ∑ i : Fin votes.length, z i * (r i + Spec.edK sha d votes[i] * a i) [MOD edL] := by
      refine modEq_sum fun i => ?_
      rw [mul_add, show z i * (Spec.edK sha d votes[i] * a i) = Spec.edK sha d votes[i] * z i * a i by ring]
      exact (Nat.ModEq.refl _).add ((Nat.mod_modEq _ _).mul_right _)
    have hr : ∑ i : Fin votes.length, z i * Codec.leVal votes[i].2.part2.1 % edL ≡
        ∑ i : Fin votes.length, z i * Codec.leVal votes[i].2.part2.1 [MOD edL] := modEq_sum fun i => Nat.mod_modEq _ _
    exact ⟨fun h => hl.symm.trans (h.trans hr), fun h => hl.trans (h.trans hr.symm)⟩
  · exact Iff.rfl

/-- **C116** (small order). `Signature::verify` refuses every vote whose key or first half is one of the fourteen strings of small order. -/
theorem C116_reject (sig : Signature) (d : Digest) (pk : PublicKey)
    (h : Codec.leVal pk.bytes.1 % 2 ^ 255 ∈ Spec.smallY ∨ Codec.leVal sig.part1.1 % 2 ^ 255 ∈ Spec.smallY) :
    Signature.verify ((ed25519 sha).ops zs) sig d pk ≠ .ok () := by
  have h1 : (ed25519 sha).decompress = edDecompress := by rw [ed25519]
  rw [Ne, C97_verify, Spec.EdValid, h1]
  rintro ⟨R, A, hR, hA, -, h8R, h8A, -⟩
  rw [← C116_small, ← C116_small] at h
  rcases h with ⟨P, hP, h8⟩ | ⟨P, hP, h8⟩
  · obtain rfl := Option.some.inj (hP.symm.trans hA)
    exact h8A h8
  · obtain rfl := Option.some.inj (hP.symm.trans hR)
    exact h8R h8

/-- A signature for a key with a part of order eight, with a first half without, is accepted only if the challenge is divisible by eight. -/
example (sig : Signature) (d : Digest) (pk : PublicKey) (a r : ℕ) (hA : edDecompress pk.bytes = some (a • edBase + 1 • edT))
    (hR : edDecompress sig.part1 = some (r • edBase + 0 • edT)) (h : Signature.verify ((ed25519 sha).ops zs) sig d pk = .ok ()) :
    8 ∣ Spec.edK sha d (pk, sig) := by
  have := ((C116_verify sha zs sig d pk a 1 r 0 hA hR).1 h).2.2.2.2
  rw [zero_add, mul_one] at this
  exact (Nat.modEq_zero_iff_dvd).1 this

/-- A vote whose first half has a part of order eight is refused by `verify`, but passes as a batch exactly if its weight is divisible by eight. -/
example (sig : Signature) (d : Digest) (pk : PublicKey) (a r : ℕ) (hA : edDecompress pk.bytes = some (a • edBase + 0 • edT))
    (hR : edDecompress sig.part1 = some (r • edBase + 1 • edT)) (hs : Codec.leVal sig.part2.1 < edL)
    (he : Codec.leVal sig.part2.1 ≡ r + Spec.edK sha d (pk, sig) * a [MOD edL]) :
    Signature.verify ((ed25519 sha).ops zs) sig d pk ≠ .ok () ∧
    (Signature.verifyBatch ((ed25519 sha).ops zs) d [(pk, sig)] = .ok () ↔ 8 ∣ zs [d.bytes.1] [sig.flatten] [pk.bytes] 0) := by
  constructor
  · intro h
    have := ((C116_verify sha zs sig d pk a 0 r 1 hA hR).1 h).2.2.2.2
    rw [mul_zero] at this
    exact absurd this (by decide)
  · have := C116_batch sha zs d [(pk, sig)] (fun _ => a) (fun _ => 0) (fun _ => r) (fun _ => 1) (fun i => by
      obtain ⟨i, hi⟩ := i
      obtain rfl : i = 0 := by simpa using hi
      exact ⟨hA, hR⟩)
    refine this.trans ?_
    simp only [List.mem_singleton, forall_eq, List.length_singleton, Finset.univ_unique, Finset.sum_singleton, mul_one, mul_zero, add_zero]
    exact ⟨fun h => Nat.modEq_zero_iff_dvd.1 h.2.2, fun h => ⟨hs, he.symm.mul_left _, Nat.modEq_zero_iff_dvd.2 h⟩⟩

end

end Verif
