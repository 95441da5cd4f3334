import Verif.Lemmas.Ecpp
import Verif.Model.Dalek

/-!
# The order of the Ed25519 base point is prime

Pocklington's criterion, with a Lucas certificate for the smallest factor.
-/

namespace Verif

theorem ed_prime_0 : Nat.Prime 1257559732178653 := by
  have hp : ∀ e, e < 2 ^ 51 → powMod 1257559732178653 51 2 e % 1257559732178653 ≠ 1 →
      ((2 : ℕ) : ZMod 1257559732178653) ^ e ≠ 1 := by
    intro e he h hc
    rw [← powMod_eq 1257559732178653 51 2 e he] at hc
    have : ((powMod 1257559732178653 51 2 e : ℕ) : ZMod 1257559732178653) = ((1 : ℕ) : ZMod 1257559732178653) := by simpa using hc
    rw [ZMod.natCast_eq_natCast_iff] at this
    exact h this
  refine lucas_primality _ ((2 : ℕ) : ZMod 1257559732178653) ?_ fun q hq hd => ?_
  · rw [← powMod_eq 1257559732178653 51 2 _ (by decide)]
    have : powMod 1257559732178653 51 2 (1257559732178653 - 1) = 1 := by decide +kernel
    rw [this, Nat.cast_one]
  · rw [show 1257559732178653 - 1 = 2 ^ 2 * 3 * 7 * 23 * 531581 * 1224481 by norm_num] at hd
    have h2 : Nat.Prime 2 := by norm_num
    have h3 : Nat.Prime 3 := by norm_num
    have h7 : Nat.Prime 7 := by norm_num
    have h23 : Nat.Prime 23 := by norm_num
    have ha : Nat.Prime 531581 := by norm_num
    have hb : Nat.Prime 1224481 := by norm_num
    simp only [Nat.Prime.dvd_mul hq] at hd
    rcases hd with ((((h | h) | h) | h) | h) | h
    · obtain rfl := (Nat.prime_dvd_prime_iff_eq hq h2).1 (hq.dvd_of_dvd_pow h)
      exact hp _ (by decide +kernel) (by decide +kernel)
    · obtain rfl := (Nat.prime_dvd_prime_iff_eq hq h3).1 h
      exact hp _ (by decide +kernel) (by decide +kernel)
    · obtain rfl := (Nat.prime_dvd_prime_iff_eq hq h7).1 h
      exact hp _ (by decide +kernel) (by decide +kernel)
    · obtain rfl := (Nat.prime_dvd_prime_iff_eq hq h23).1 h
      exact hp _ (by decide +kernel) (by decide +kernel)
    · obtain rfl := (Nat.prime_dvd_prime_iff_eq hq ha).1 h
      exact hp _ (by decide +kernel) (by decide +kernel)
    · obtain rfl := (Nat.prime_dvd_prime_iff_eq hq hb).1 h
      exact hp _ (by decide +kernel) (by decide +kernel)

theorem ed_prime_1 : Nat.Prime 4434155615661930479 :=
  prime_of_pocklington 1257559732178653 3526 2 62 ed_prime_0 (by decide +kernel) (by decide +kernel)
    (by decide +kernel) (by decide +kernel) (by decide +kernel)

theorem ed_prime_2 : Nat.Prime 172054593956031949258510691 :=
  prime_of_pocklington 4434155615661930479 38802110 2 88 ed_prime_1 (by decide +kernel) (by decide +kernel)
    (by decide +kernel) (by decide +kernel) (by decide +kernel)

theorem ed_prime_3 : Nat.Prime 19757330305831588566944191468367130476339 :=
  prime_of_pocklington 172054593956031949258510691 114831751082918 2 134 ed_prime_2 (by decide +kernel) (by decide +kernel)
    (by decide +kernel) (by decide +kernel) (by decide +kernel)

theorem ed_prime_4 : Nat.Prime 276602624281642239937218680557139826668747 :=
  prime_of_pocklington 19757330305831588566944191468367130476339 14 2 138 ed_prime_3 (by decide +kernel) (by decide +kernel)
    (by decide +kernel) (by decide +kernel) (by decide +kernel)

theorem edL_prime : edL.Prime :=
  prime_of_pocklington 276602624281642239937218680557139826668747 26163907866482859529727157400808004 2 253 ed_prime_4
    (by decide +kernel) (by decide +kernel) (by decide +kernel) (by decide +kernel) (by decide +kernel)

instance factEdL : Fact edL.Prime := ⟨edL_prime⟩

end Verif
