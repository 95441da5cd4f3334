import Mathlib.LinearAlgebra.Lagrange
import Mathlib.LinearAlgebra.Dual.Lemmas

/-! Interpolation and dual-code identities for module-valued polynomials over a field. -/

open Polynomial Finset

namespace Verif
section
variable {F : Type*} [Field F] {M : Type*} [AddCommGroup M] [Module F M]
  {ι : Type*} [DecidableEq ι] {s : Finset ι} {v : ι → F}

/-- Value at `x` of the module-valued polynomial `A₀ + x A₁ + … + x^t A_t`. -/
def evalM (A : ℕ → M) (t : ℕ) (x : F) : M := ∑ k ∈ range (t + 1), x ^ k • A k

theorem evalM_zero (A : ℕ → M) (t : ℕ) : evalM A t (0 : F) = A 0 := by
  unfold evalM
  rw [sum_eq_single 0]
  · simp
  · intro b _ hb; simp [zero_pow hb]
  · simp

theorem sum_nodalWeight_eq_coeff (hvs : Set.InjOn v s) {P : F[X]} (hP : P.degree < #s) :
    ∑ i ∈ s, P.eval (v i) * Lagrange.nodalWeight s v i = P.coeff (#s - 1) := by
  rw [Lagrange.coeff_eq_sum hvs hP]
  refine sum_congr rfl fun i _ => ?_
  rw [Lagrange.nodalWeight, div_eq_mul_inv, prod_inv_distrib]

theorem dual_complete (hvs : Set.InjOn v s) (A : ℕ → M) (t : ℕ) (q : F[X])
    (hq : q.natDegree + t + 2 ≤ #s) :
    ∑ i ∈ s, (q.eval (v i) * Lagrange.nodalWeight s v i) • evalM A t (v i) = 0 := by
  have key : ∀ k ∈ range (t + 1), ∑ i ∈ s, (q * X ^ k).eval (v i) * Lagrange.nodalWeight s v i = 0 := by
    intro k hk
    have hk' : k ≤ t := by simpa [Nat.lt_succ_iff] using hk
    have hnd : (q * X ^ k).natDegree < #s - 1 := by
      refine lt_of_le_of_lt natDegree_mul_le ?_
      have := natDegree_X_pow_le (R := F) k
      omega
    rw [sum_nodalWeight_eq_coeff hvs, coeff_eq_zero_of_natDegree_lt hnd]
    refine lt_of_le_of_lt degree_le_natDegree ?_
    exact_mod_cast (by omega : (q * X ^ k).natDegree < #s)
  unfold evalM
  simp only [smul_sum, smul_smul]
  rw [sum_comm]
  refine sum_eq_zero fun k hk => ?_
  rw [← sum_smul]
  have := key k hk
  simp only [eval_mul, eval_pow, eval_X] at this
  rw [show (∑ i ∈ s, q.eval (v i) * Lagrange.nodalWeight s v i * v i ^ k) = 0 from ?_, zero_smul]
  rw [← this]
  exact sum_congr rfl fun i _ => by ring

theorem dual_sound_scalar (hvs : Set.InjOn v s) (t : ℕ) (u : ι → F)
    (h : ∀ k, k + t + 2 ≤ #s → ∑ i ∈ s, (v i ^ k * Lagrange.nodalWeight s v i) * u i = 0) {m : ℕ} (hm : t < m) :
    (Lagrange.interpolate s v u).coeff m = 0 := by
  set f := Lagrange.interpolate s v u with hf
  have hdeg : f.degree < #s := Lagrange.degree_interpolate_lt u hvs
  by_contra hne
  have hf0 : f ≠ 0 := by rintro h0; rw [h0] at hne; simp at hne
  have hd1 : m ≤ f.natDegree := le_natDegree_of_ne_zero hne
  have hd2 : f.natDegree < #s := (natDegree_lt_iff_degree_lt hf0).2 hdeg
  have hk := h (#s - 1 - f.natDegree) (by omega)
  have hX : (X ^ (#s - 1 - f.natDegree) * f).natDegree = #s - 1 := by
    rw [natDegree_X_pow_mul _ hf0]; omega
  have hlt : (X ^ (#s - 1 - f.natDegree) * f).degree < ((#s : ℕ) : WithBot ℕ) := by
    refine lt_of_le_of_lt degree_le_natDegree ?_
    rw [hX]
    exact_mod_cast (by omega : #s - 1 < #s)
  have := sum_nodalWeight_eq_coeff hvs hlt
  have hco : (X ^ (#s - 1 - f.natDegree) * f).coeff (#s - 1) = f.leadingCoeff := by
    have e : #s - 1 = f.natDegree + (#s - 1 - f.natDegree) := by omega
    conv_lhs => rw [e]
    rw [show f.natDegree + (#s - 1 - f.natDegree) - f.natDegree = #s - 1 - f.natDegree by omega,
      coeff_X_pow_mul, leadingCoeff]
  rw [hco] at this
  have h2 : ∑ i ∈ s, (X ^ (#s - 1 - f.natDegree) * f).eval (v i) * Lagrange.nodalWeight s v i = 0 := by
    rw [← hk]
    refine sum_congr rfl fun i hi => ?_
    rw [eval_mul, eval_pow, eval_X, hf, Lagrange.eval_interpolate_at_node u hvs hi]
    ring
  rw [h2] at this
  exact hf0 (leadingCoeff_eq_zero.1 this.symm)

/-- Coefficients of the module-valued interpolant. -/
noncomputable def interpCoeff (s : Finset ι) (v : ι → F) (u : ι → M) (k : ℕ) : M :=
  ∑ i ∈ s, (Lagrange.basis s v i).coeff k • u i

theorem interp_eval (hvs : Set.InjOn v s) (u : ι → M) {N : ℕ} (hN : #s ≤ N) {i : ι} (hi : i ∈ s) :
    ∑ k ∈ range N, v i ^ k • interpCoeff s v u k = u i := by
  unfold interpCoeff
  simp only [smul_sum, smul_smul]
  rw [sum_comm]
  have : ∀ j ∈ s, ∑ k ∈ range N, (v i ^ k * (Lagrange.basis s v j).coeff k) • u j
      = (if j = i then u j else 0) := by
    intro j hj
    rw [← sum_smul]
    have hlt : (Lagrange.basis s v j).natDegree < N := by
      rw [Lagrange.natDegree_basis hvs hj]
      have := card_pos.2 ⟨j, hj⟩
      omega
    have : ∑ k ∈ range N, v i ^ k * (Lagrange.basis s v j).coeff k = (Lagrange.basis s v j).eval (v i) := by
      rw [eval_eq_sum_range' hlt]
      exact sum_congr rfl fun k _ => mul_comm _ _
    rw [this]
    split
    · rename_i h; subst h; rw [Lagrange.eval_basis_self hvs hi, one_smul]
    · rename_i h; rw [Lagrange.eval_basis_of_ne h hi, zero_smul]
  rw [sum_congr rfl this, sum_ite_eq' s i]
  simp [hi]

theorem dual_sound (hvs : Set.InjOn v s) (t : ℕ) (u : ι → M)
    (h : ∀ k, k + t + 2 ≤ #s → ∑ i ∈ s, (v i ^ k * Lagrange.nodalWeight s v i) • u i = 0) :
    ∃ A : ℕ → M, ∀ i ∈ s, u i = evalM A t (v i) := by
  refine ⟨interpCoeff s v u, fun i hi => ?_⟩
  have hz : ∀ m, t < m → interpCoeff s v u m = 0 := by
    intro m hm
    rw [← Module.forall_dual_apply_eq_zero_iff F]
    intro φ
    have := dual_sound_scalar hvs t (fun i => φ (u i)) (fun k hk => by
      have := congrArg φ (h k hk)
      simpa [map_sum] using this) hm
    rw [Lagrange.interpolate_apply, finsetSum_coeff] at this
    simp only [interpCoeff, map_sum, map_smul, smul_eq_mul]
    rw [← this]
    refine sum_congr rfl fun i _ => ?_
    rw [coeff_C_mul, mul_comm]
  have h1 := interp_eval hvs u (N := #s + (t + 1)) (by omega) hi
  rw [← h1]
  unfold evalM
  symm
  apply sum_subset
  · intro k hk; simp at hk ⊢; omega
  · intro k _ hk
    have : t < k := by simpa using hk
    rw [hz k (by omega), smul_zero]

/-- Interpolating a degree-`t` module-valued polynomial at more than `t` nodes evaluates it anywhere. -/
theorem interp_exact (hvs : Set.InjOn v s) (A : ℕ → M) {t : ℕ} (ht : t < #s) (x : F) :
    ∑ j ∈ s, (Lagrange.basis s v j).eval x • evalM A t (v j) = evalM A t x := by
  unfold evalM
  simp only [smul_sum, smul_smul]
  rw [sum_comm]
  refine sum_congr rfl fun k hk => ?_
  rw [← sum_smul]
  congr 1
  have hdeg : ((X : F[X]) ^ k).degree < #s := by
    rw [degree_X_pow]
    have : k ≤ t := by simpa [Nat.lt_succ_iff] using hk
    exact_mod_cast (by omega : k < #s)
  have := congrArg (eval x) (Lagrange.eq_interpolate hvs hdeg)
  rw [Lagrange.interpolate_apply, eval_finsetSum] at this
  simp only [eval_pow, eval_X, eval_mul, eval_C] at this
  rw [this]
  exact sum_congr rfl fun j _ => mul_comm _ _

theorem basis_eval_zero (j : ι) :
    (Lagrange.basis s v j).eval 0 = ∏ k ∈ s.erase j, v k * (v k - v j)⁻¹ := by
  rw [Lagrange.basis, eval_prod]
  refine prod_congr rfl fun k _ => ?_
  rw [Lagrange.basisDivisor]
  simp only [eval_mul, eval_C, eval_sub, eval_X, zero_sub]
  rw [← neg_sub (v k) (v j), inv_neg]
  ring

end
end Verif
