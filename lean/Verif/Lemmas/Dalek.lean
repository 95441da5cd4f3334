import Verif.Lemmas.EdPrime
import Mathlib.GroupTheory.OrderOfElement
import Mathlib.Algebra.BigOperators.Group.Finset.Basic
import Mathlib.Data.Fintype.BigOperators

/-!
# Lemmas: signatures over an abstract curve group
-/

namespace Verif

open Finset

namespace EdCurve

variable {E : Type} [AddCommGroup E] {C : EdCurve E}

theorem Laws.smul_eq_zero (h : C.Laws) (n : ℕ) : n • C.base = 0 ↔ edL ∣ n := by
  rw [← addOrderOf_dvd_iff_nsmul_eq_zero, addOrderOf_eq_prime h.order h.base_ne]

theorem Laws.mod_smul (h : C.Laws) (n : ℕ) : (n % edL) • C.base = n • C.base := by
  conv_rhs => rw [← Nat.mod_add_div n edL, add_smul, mul_comm, mul_smul, h.order, smul_zero, add_zero]

theorem Laws.mod_smul' (h : C.Laws) (n m : ℕ) : (n % edL) • (m • C.base) = n • (m • C.base) := by
  conv_rhs => rw [← Nat.mod_add_div n edL, add_smul, mul_comm, mul_smul, smul_comm edL, h.order, smul_zero, smul_zero, add_zero]

theorem Laws.smul_inj (h : C.Laws) {n m : ℕ} (hn : n < edL) (hm : m < edL) (e : n • C.base = m • C.base) : n = m := by
  rw [← Nat.mod_eq_of_lt hn, ← Nat.mod_eq_of_lt hm]
  have := (nsmul_eq_nsmul_iff_modEq (x := C.base) (n := n) (m := m)).1 e
  rwa [addOrderOf_eq_prime h.order h.base_ne] at this

theorem coprime_eight : Nat.Coprime edL 8 := by decide +kernel

theorem Laws.small_iff (h : C.Laws) (n : ℕ) : 8 • (n • C.base) = 0 ↔ edL ∣ n := by
  rw [← mul_smul, h.smul_eq_zero]
  exact ⟨fun hd => coprime_eight.dvd_of_dvd_mul_left hd, fun hd => hd.mul_left _⟩

theorem not_dvd_clamp (v : ℕ) : ¬ edL ∣ clamp v := by
  intro hd
  have h8 : 8 ∣ clamp v := ⟨2 ^ 251 + v % 2 ^ 254 / 8, by unfold clamp; ring⟩
  have h := Nat.le_of_dvd (by unfold clamp; positivity) (coprime_eight.mul_dvd_of_dvd_of_dvd hd h8)
  have h1 : v % 2 ^ 254 / 8 * 8 ≤ v % 2 ^ 254 := Nat.div_mul_le_self _ _
  have h2 : v % 2 ^ 254 < 2 ^ 254 := Nat.mod_lt _ (by positivity)
  have h3 : clamp v < 2 ^ 254 + 2 ^ 254 := by unfold clamp; omega
  have h4 : 2 ^ 254 + 2 ^ 254 < edL * 8 := by decide +kernel
  omega

theorem edL_pos : 0 < edL := by decide +kernel
theorem edL_lt : edL < 2 ^ 253 := by decide +kernel
theorem edL_lt_bytes : edL < 256 ^ 32 := by decide +kernel

theorem wide_lt (h : Bytes 64) : wide h < edL := Nat.mod_lt _ edL_pos

theorem fst32_append (a b : Bytes 32) : fst32 (Bytes.append32 a b) = a := by
  apply Subtype.ext
  simp [fst32, Bytes.append32, a.2]

theorem snd32_append (a b : Bytes 32) : snd32 (Bytes.append32 a b) = b := by
  apply Subtype.ext
  simp [snd32, Bytes.append32, a.2]

theorem sOf_append (a b : Bytes 32) : sOf (Bytes.append32 a b) = Codec.leVal b.1 := by
  rw [sOf, snd32_append]

/-! ### batches -/

section
variable [DecidableEq E] (C)

/-- What a vote adds for weight one, when its points are multiples of the base point. -/
def defect (v : Vote) : E :=
  (C.decompress (fst32 v.2.1)).getD 0 + C.challenge (fst32 v.2.1).1 v.2.2.1 v.1 • (C.decompress v.2.2).getD 0 - sOf v.2.1 • C.base

variable {C}

omit [DecidableEq E] in
theorem batchTerm_eq (h : C.Laws) {v : Vote} {a b : ℕ} (hR : C.decompress (fst32 v.2.1) = some (a • C.base))
    (hA : C.decompress v.2.2 = some (b • C.base)) (z : ℕ) : C.batchTerm z v = some (z • C.defect v) := by
  simp only [batchTerm, hR, hA, defect, Option.getD_some]
  rw [h.mod_smul, h.mod_smul', mul_comm _ z, mul_smul z, mul_smul z, smul_sub, smul_add]

/-- The points of the votes are multiples of the base point. -/
def InGroup (C : EdCurve E) (v : Vote) : Prop :=
  ∃ a b : ℕ, C.decompress (fst32 v.2.1) = some (a • C.base) ∧ C.decompress v.2.2 = some (b • C.base)

omit [DecidableEq E] in
theorem batchSum_eq (h : C.Laws) (z : ℕ → ℕ) (vs : List Vote) (hv : ∀ v ∈ vs, InGroup C v) (i : ℕ) :
    C.batchSum z i vs = some (∑ j : Fin vs.length, z (i + j) • C.defect vs[j]) := by
  induction vs generalizing i with
  | nil => simp [batchSum]
  | cons v vs ih =>
    obtain ⟨a, b, hR, hA⟩ := hv v (by simp)
    rw [batchSum, batchTerm_eq h hR hA, ih (fun w hw => hv w (by simp [hw]))]
    simp only [Option.bind_eq_bind, Option.bind_some, List.length_cons, Option.some.injEq]
    rw [Fin.sum_univ_succ]
    simp only [Fin.val_zero, add_zero, Fin.val_succ]
    congr 1
    refine sum_congr rfl fun j _ => ?_
    rw [show i + 1 + (j : ℕ) = i + ((j : ℕ) + 1) by omega]
    rfl

/-- A non-trivial linear condition on weights below the (prime) order of a point holds for at most one value of one weight. -/
theorem card_weights (h : C.Laws) {n N : ℕ} (hN : N ≤ edL) (T : Fin n → E) (j : Fin n) (c : ℕ) (hj : T j = c • C.base)
    (hT : T j ≠ 0) : (univ.filter fun z : Fin n → Fin N => ∑ i, (z i : ℕ) • T i = 0).card * N ≤ N ^ n := by
  classical
  have hcard : (univ.filter fun z : Fin n → Fin N => ∑ i, (z i : ℕ) • T i = 0).card ≤ N ^ (n - 1) := by
    have := card_le_card_of_injOn (s := univ.filter fun z : Fin n → Fin N => ∑ i, (z i : ℕ) • T i = 0)
      (t := (univ : Finset ({i // i ≠ j} → Fin N))) (fun z i => z i) (fun _ _ => mem_univ _) (by
        intro z hz w hw e
        have hz := (mem_filter.1 (mem_coe.1 hz)).2
        have hw := (mem_filter.1 (mem_coe.1 hw)).2
        have hne : ∀ i, i ≠ j → z i = w i := fun i hi => congrFun e ⟨i, hi⟩
        funext i
        by_cases hi : i = j
        · subst hi
          rw [← add_sum_erase _ _ (mem_univ i)] at hz hw
          rw [sum_congr rfl fun k hk => by rw [hne k (ne_of_mem_erase hk)]] at hz
          have heq := add_right_cancel (hz.trans hw.symm)
          rw [hj, ← mul_smul, ← mul_smul] at heq
          have hm := (nsmul_eq_nsmul_iff_modEq (x := C.base)).1 heq
          rw [addOrderOf_eq_prime h.order h.base_ne] at hm
          have hc : Nat.Coprime edL c := by
            rw [Nat.Prime.coprime_iff_not_dvd edL_prime, ← h.smul_eq_zero, ← hj]
            exact hT
          have hm2 : (z i : ℕ) ≡ (w i : ℕ) [MOD edL] := Nat.ModEq.cancel_right_of_coprime hc hm
          have : (z i : ℕ) = w i := by
            have h1 := (z i).2
            have h2 := (w i).2
            rwa [Nat.ModEq, Nat.mod_eq_of_lt (by omega), Nat.mod_eq_of_lt (by omega)] at hm2
          exact Fin.ext this
        · exact hne i hi)
    rwa [card_univ, Fintype.card_fun, Fintype.card_fin, Fintype.card_subtype_compl, Fintype.card_fin,
      Fintype.card_subtype_eq] at this
  have hn : n = n - 1 + 1 := by have := j.2; omega
  calc _ ≤ N ^ (n - 1) * N := Nat.mul_le_mul_right _ hcard
    _ = N ^ n := by rw [← pow_succ, ← hn]

end

end EdCurve

end Verif
