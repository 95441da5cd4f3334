import Verif.Lemmas.EdPrime
import Mathlib.Tactic.FieldSimp
import Mathlib.Tactic.LinearCombination

/-!
# The curve of Ed25519

The group is that of the points of Curve25519 in short Weierstrass form, `Y² = X³ + a X + b` with `X = u + A/3`, `Y = v` for
`v² = u³ + A u² + u`.  The map to Edwards coordinates is the one of RFC 7748, §4.1.
-/

namespace Verif

open WeierstrassCurve

/-- `2^255 - 19` -/
def edP : ℕ := 2 ^ 255 - 19

def edWa : ℕ := 0x2aaaaaaaaaaaaaaaaaaaaaaaaaaaaaaaaaaaaaaaaaaaaaaaaaaaaa984914a144
def edWb : ℕ := 0x7b425ed097b425ed097b425ed097b425ed097b425ed097b4260b5e9c7710c864
/-- A third of `A`. -/
def edWt : ℕ := 0x2aaaaaaaaaaaaaaaaaaaaaaaaaaaaaaaaaaaaaaaaaaaaaaaaaaaaaaaaaad2451
/-- The base point: `u = 9`. -/
def edGx : ℕ := 0x2aaaaaaaaaaaaaaaaaaaaaaaaaaaaaaaaaaaaaaaaaaaaaaaaaaaaaaaaaad245a
def edGy : ℕ := 0x20ae19a1b8a086b4e01edd2c7748d14c923d4d7e6d7c61b229e9c5a27eced3d9
/-- The root of `-(A + 2)` for which the base point of RFC 7748 has a non-negative `x`. -/
def edC : ℕ := 0x70d9120b9f5ff9442d84f723fc03b0813a5e2c2eb482e57d3391fb5500ba81e7

theorem edP_prime : edP.Prime :=
  prime_of_curve edL edWa edWb edGx edGy 253 edL_prime (by decide +kernel) (by decide +kernel) (by decide +kernel) (by decide +kernel)

instance factEdP : Fact edP.Prime := ⟨edP_prime⟩

/-- The field of coordinates. -/
abbrev EdF := ZMod edP

/-- Curve25519, in short Weierstrass form. -/
abbrev edW : Affine EdF := swCurve ((edWa : ℕ) : EdF) ((edWb : ℕ) : EdF)

theorem edF_cast {m n : ℕ} (h : m % edP = n % edP) : (m : EdF) = (n : EdF) := (ZMod.natCast_eq_natCast_iff' _ _ _).2 h

theorem edF_ne {m n : ℕ} (h : m % edP ≠ n % edP) : (m : EdF) ≠ (n : EdF) := fun e => h ((ZMod.natCast_eq_natCast_iff' _ _ _).1 e)

theorem edF_two : (2 : EdF) ≠ 0 := by simpa using edF_ne (m := 2) (n := 0) (by decide +kernel)
theorem edF_three : (3 : EdF) ≠ 0 := by simpa using edF_ne (m := 3) (n := 0) (by decide +kernel)

theorem edWt_eq : ((edWt : ℕ) : EdF) = 486662 / 3 := by
  rw [eq_div_iff edF_three]
  simpa using edF_cast (m := edWt * 3) (n := 486662) (by decide +kernel)

theorem edWa_eq : ((edWa : ℕ) : EdF) = 1 - 486662 ^ 2 / 3 := by
  have h : ((edWa : ℕ) : EdF) * 3 + 486662 ^ 2 = 3 := by
    have := edF_cast (m := edWa * 3 + 486662 ^ 2) (n := 3) (by decide +kernel)
    push_cast at this
    linear_combination this
  have := edF_three
  field_simp
  linear_combination h

theorem edWb_eq : ((edWb : ℕ) : EdF) = 2 * 486662 ^ 3 / 27 - 486662 / 3 := by
  have h : ((edWb : ℕ) : EdF) * 27 + 9 * 486662 = 2 * 486662 ^ 3 := by
    have := edF_cast (m := edWb * 27 + 9 * 486662) (n := 2 * 486662 ^ 3) (by decide +kernel)
    push_cast at this
    linear_combination this
  have h27 : (27 : EdF) ≠ 0 := by
    rw [show (27 : EdF) = 3 ^ 3 by norm_num]
    exact pow_ne_zero _ edF_three
  have h3 : (486662 : EdF) / 3 * 27 = 9 * 486662 := by
    rw [show (27 : EdF) = 3 * 9 by norm_num, ← mul_assoc, div_mul_cancel₀ _ edF_three, mul_comm]
  apply mul_right_cancel₀ h27
  rw [sub_mul, div_mul_cancel₀ _ h27, h3]
  linear_combination h

theorem edC_sq : ((edC : ℕ) : EdF) ^ 2 = -486664 := by
  have h : ((edC : ℕ) : EdF) ^ 2 + 486664 = 0 := by
    have := edF_cast (m := edC ^ 2 + 486664) (n := 0) (by decide +kernel)
    push_cast at this
    linear_combination this
  linear_combination h

theorem edC_ne : ((edC : ℕ) : EdF) ≠ 0 := by simpa using edF_ne (m := edC) (n := 0) (by decide +kernel)

/-- Euler's criterion, the direction needed here. -/
theorem not_square {a : ℕ} (h : powMod edP 255 a ((edP - 1) / 2) % edP ≠ 1) (h0 : a % edP ≠ 0) (w : EdF) : w ^ 2 ≠ (a : EdF) := by
  intro hw
  have ha : (a : EdF) ≠ 0 := by simpa using edF_ne (m := a) (n := 0) (by simpa using h0)
  have hw0 : w ≠ 0 := by
    rintro rfl
    exact ha (by rw [← hw]; simp)
  have h1 : (a : EdF) ^ ((edP - 1) / 2) = 1 := by
    rw [← hw, ← pow_mul, show 2 * ((edP - 1) / 2) = edP - 1 by decide +kernel]
    exact ZMod.pow_card_sub_one_eq_one hw0
  rw [← powMod_eq edP 255 a _ (by decide +kernel)] at h1
  rw [← Nat.cast_one] at h1
  have h2 := (ZMod.natCast_eq_natCast_iff' _ _ _).1 h1
  rw [Nat.mod_eq_of_lt (show 1 < edP by decide +kernel)] at h2
  exact h h2

theorem edA_not_square (w : EdF) : w ^ 2 ≠ 486660 := by
  have := not_square (a := 486660) (by decide +kernel) (by decide +kernel) w
  simpa using this

theorem edDisc_not_square (w : EdF) : w ^ 2 ≠ 486662 ^ 2 - 4 := by
  have := not_square (a := 486662 ^ 2 - 4) (by decide +kernel) (by decide +kernel) w
  intro h
  apply this
  rw [h]
  norm_num

end Verif
