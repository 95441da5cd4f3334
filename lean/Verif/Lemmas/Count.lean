import Mathlib.Data.ZMod.Basic
import Mathlib.Algebra.Field.ZMod
import Mathlib.Algebra.Module.Defs
import Mathlib.Algebra.Module.BigOperators
import Mathlib.Data.Fintype.Pi
import Mathlib.Data.Fintype.BigOperators

/-! Counting lemmas. -/

open Finset

namespace Verif
variable {r : ℕ} [Fact r.Prime] {M : Type*} [AddCommGroup M] [Module (ZMod r) M]

theorem smul_left_inj_of_ne {a b : ZMod r} {x : M} (hx : x ≠ 0) (h : a • x = b • x) : a = b := by
  by_contra hne
  have h0 : (a - b) • x = 0 := by rw [sub_smul, h, sub_self]
  have : x = 0 := by
    have := congrArg ((a - b)⁻¹ • ·) h0
    simpa [smul_smul, inv_mul_cancel₀ (sub_ne_zero.2 hne)] using this
  exact hx this

open Classical in
/-- At most a `1/r` fraction of the coefficient vectors solves a non-trivial linear equation. -/
theorem card_linear_le {N : ℕ} (B : Fin N → M) (v : M) {k : Fin N} (hk : B k ≠ 0) :
    (univ.filter fun c : Fin N → ZMod r => ∑ i, c i • B i = v).card * r ≤ r ^ N := by
  have hr : Fintype.card (ZMod r) = r := ZMod.card r
  set S := univ.filter fun c : Fin N → ZMod r => ∑ i, c i • B i = v with hS
  have hinj : Set.InjOn (fun p : (Fin N → ZMod r) × ZMod r => p.1 + Pi.single k p.2)
      (S ×ˢ (univ : Finset (ZMod r)) : Finset _) := by
    rintro ⟨c, a⟩ hc ⟨c', a'⟩ hc' h
    simp only [coe_product, Set.mem_prod, mem_coe, hS, mem_filter, mem_univ, true_and, and_true] at hc hc'
    have hsum : ∀ (d : Fin N → ZMod r) (b : ZMod r), ∑ i, (d + Pi.single k b : Fin N → ZMod r) i • B i
        = ∑ i, d i • B i + b • B k := by
      intro d b
      simp only [Pi.add_apply, add_smul, sum_add_distrib]
      congr 1
      rw [sum_eq_single k]
      · simp
      · intro i _ hi; simp [Pi.single_eq_of_ne hi]
      · simp
    have h1 := hsum c a
    have h2 := hsum c' a'
    simp only at h
    rw [h, h2, hc, hc'] at h1
    have ha : a' = a := smul_left_inj_of_ne hk (add_left_cancel h1)
    subst ha
    have : c = c' := by simpa using h
    rw [this]
  have := card_le_card_of_injOn _ (t := (univ : Finset (Fin N → ZMod r))) (fun x _ => by simp) hinj
  rw [card_product, card_univ, card_univ, Fintype.card_fun, hr, Fintype.card_fin] at this
  exact this

end Verif
