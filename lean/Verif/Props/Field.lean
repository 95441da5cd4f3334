import Verif.Model.Basic
import Verif.Toy
import Mathlib.NumberTheory.LucasPrimality
import Mathlib.Tactic.NormNum.Prime
import Mathlib.Tactic.NormNum.Pow
import Mathlib.Tactic.IntervalCases

/-!
# The scalar field of BLS12-381: C61
-/

namespace Verif

/-- Order of the BLS12-381 scalar field (`Fr` of `ark-bls12-381`, the `Scalar` of the tests). /repo/src/lib.rs:21,
/repo/Cargo.toml:12. -/
def blsR : ℕ := 52435875175126190479447740508185965837690552500527637822603658699938581184513

/-- `a ^ b mod m` by repeated squaring on the bits of `b` (least significant first). -/
def powMod (m : ℕ) : ℕ → ℕ → ℕ → ℕ
  | 0, _, _ => 1
  | f + 1, a, b => if b = 0 then 1 else
      if b % 2 = 1 then a * powMod m f (a * a % m) (b / 2) % m else powMod m f (a * a % m) (b / 2)

theorem powMod_eq (m : ℕ) (f a b : ℕ) (h : b < 2 ^ f) : ((powMod m f a b : ℕ) : ZMod m) = (a : ZMod m) ^ b := by
  induction f generalizing a b with
  | zero =>
    have : b = 0 := by simpa using h
    subst this; simp [powMod]
  | succ f ih =>
    rw [powMod]
    split
    · rename_i hb; subst hb; simp
    · have h2 : b / 2 < 2 ^ f := by rw [pow_succ] at h; omega
      have hsq : (((a * a % m : ℕ) : ZMod m)) ^ (b / 2) = (a : ZMod m) ^ (2 * (b / 2)) := by
        rw [ZMod.natCast_mod, Nat.cast_mul, ← pow_two, ← pow_mul]
      split
      · rename_i hodd
        rw [ZMod.natCast_mod, Nat.cast_mul, ih _ _ h2, hsq, ← pow_succ']
        congr 1; omega
      · rw [ih _ _ h2, hsq]
        congr 1; omega

theorem blsR_sub_one : blsR - 1 = 2 ^ 32 * 3 * 11 * 19 * 10177 * 125527 * 859267 * 906349 ^ 2 * 2508409 * 2529403 * 52437899 *
    254760293 ^ 2 := by decide

theorem prime_factor_of_mul {q a b : ℕ} (hq : q.Prime) (h : q ∣ a * b) : q ∣ a ∨ q ∣ b := (Nat.Prime.dvd_mul hq).1 h

theorem pow_ne_one (e : ℕ) (he : e < 2 ^ 256) (h : powMod blsR 256 7 e % blsR ≠ 1) : ((7 : ℕ) : ZMod blsR) ^ e ≠ 1 := by
  rw [← powMod_eq blsR 256 7 e he]
  intro hc
  have : ((powMod blsR 256 7 e : ℕ) : ZMod blsR) = ((1 : ℕ) : ZMod blsR) := by simpa using hc
  rw [ZMod.natCast_eq_natCast_iff] at this
  exact h (by simpa [Nat.ModEq, blsR] using this)

set_option maxRecDepth 100000 in
/-- **C61** (primality). -/
theorem C61_prime : blsR.Prime := by
  refine lucas_primality blsR ((7 : ℕ) : ZMod blsR) ?_ ?_
  · rw [← powMod_eq blsR 256 7 (blsR - 1) (by decide)]
    have : powMod blsR 256 7 (blsR - 1) = 1 := by decide
    rw [this, Nat.cast_one]
  · intro q hq hd
    rw [blsR_sub_one] at hd
    have h2 : Nat.Prime 2 := by norm_num
    have h3 : Nat.Prime 3 := by norm_num
    have h11 : Nat.Prime 11 := by norm_num
    have h19 : Nat.Prime 19 := by norm_num
    have ha : Nat.Prime 10177 := by norm_num
    have hb : Nat.Prime 125527 := by norm_num
    have hc : Nat.Prime 859267 := by norm_num
    have hdd : Nat.Prime 906349 := by norm_num
    have he : Nat.Prime 2508409 := by norm_num
    have hf : Nat.Prime 2529403 := by norm_num
    have hg : Nat.Prime 52437899 := by norm_num
    have hh : Nat.Prime 254760293 := by norm_num
    simp only [Nat.Prime.dvd_mul hq] at hd
    rcases hd with ((((((((((h | h) | h) | h) | h) | h) | h) | h) | h) | h) | h) | h
    · obtain rfl := (Nat.prime_dvd_prime_iff_eq hq h2).1 (hq.dvd_of_dvd_pow h)
      exact pow_ne_one _ (by decide) (by decide)
    · obtain rfl := (Nat.prime_dvd_prime_iff_eq hq h3).1 h
      exact pow_ne_one _ (by decide) (by decide)
    · obtain rfl := (Nat.prime_dvd_prime_iff_eq hq h11).1 h
      exact pow_ne_one _ (by decide) (by decide)
    · obtain rfl := (Nat.prime_dvd_prime_iff_eq hq h19).1 h
      exact pow_ne_one _ (by decide) (by decide)
    · obtain rfl := (Nat.prime_dvd_prime_iff_eq hq ha).1 h
      exact pow_ne_one _ (by decide) (by decide)
    · obtain rfl := (Nat.prime_dvd_prime_iff_eq hq hb).1 h
      exact pow_ne_one _ (by decide) (by decide)
    · obtain rfl := (Nat.prime_dvd_prime_iff_eq hq hc).1 h
      exact pow_ne_one _ (by decide) (by decide)
    · obtain rfl := (Nat.prime_dvd_prime_iff_eq hq hdd).1 (hq.dvd_of_dvd_pow h)
      exact pow_ne_one _ (by decide) (by decide)
    · obtain rfl := (Nat.prime_dvd_prime_iff_eq hq he).1 h
      exact pow_ne_one _ (by decide) (by decide)
    · obtain rfl := (Nat.prime_dvd_prime_iff_eq hq hf).1 h
      exact pow_ne_one _ (by decide) (by decide)
    · obtain rfl := (Nat.prime_dvd_prime_iff_eq hq hg).1 h
      exact pow_ne_one _ (by decide) (by decide)
    · obtain rfl := (Nat.prime_dvd_prime_iff_eq hq hh).1 (hq.dvd_of_dvd_pow h)
      exact pow_ne_one _ (by decide) (by decide)

/-- **C61** (size): the order exceeds `2^64` (and fits in 32 bytes). -/
theorem C61_size : 2 ^ 64 < blsR ∧ blsR < 256 ^ 32 := by decide

/-- **C61** (injectivity): distinct 64-bit integers are distinct scalars, and so are the evaluation points `i + 1`; the
latter are non-zero. -/
theorem C61_injective (a b : ℕ) (ha : a < 2 ^ 64) (hb : b < 2 ^ 64) :
    ((a : ZMod blsR) = (b : ZMod blsR) → a = b) ∧
    (((a + 1 : ℕ) : ZMod blsR) = ((b + 1 : ℕ) : ZMod blsR) → a = b) ∧ ((a + 1 : ℕ) : ZMod blsR) ≠ 0 := by
  have hs := C61_size.1
  refine ⟨fun h => ?_, fun h => ?_, fun h => ?_⟩
  · rw [ZMod.natCast_eq_natCast_iff] at h
    exact Nat.ModEq.eq_of_lt_of_lt h (by omega) (by omega)
  · rw [ZMod.natCast_eq_natCast_iff] at h
    have := Nat.ModEq.eq_of_lt_of_lt h (by omega) (by omega)
    omega
  · rw [ZMod.natCast_eq_zero_iff] at h
    have := Nat.le_of_dvd (by omega) h
    omega

instance factBls : Fact blsR.Prime := ⟨C61_prime⟩

/-- Non-vacuity: the whole development applies to the real scalar field, e.g. the codec laws of the toy suite over it. -/
example : CodecLaws (Toy.suite blsR) 32 32 32 ∧ PairLaws (Toy.suite blsR) :=
  ⟨Toy.codecLaws blsR C61_size.2, Toy.pairLaws blsR⟩

end Verif
