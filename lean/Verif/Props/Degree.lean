import Verif.Lemmas.Degree
import Verif.Toy
import Mathlib.Tactic.LinearCombination

/-!
# The degree check: C12, C13, C14
-/

open Finset Polynomial

namespace Verif

set_option linter.unusedSectionVars false

variable {r : ℕ} [Fact r.Prime] {G : Type} [AddCommGroup G] [DecidableEq G] [Module (ZMod r) G]

/-! ### C12 -/

/-- **C12**. Commitments to a scalar polynomial of degree at most `t` always pass. -/
theorem C12 (m : Mode) (rng : Rng r) (t : ℕ) (p : (ZMod r)[X]) (hp : p.natDegree ≤ t) (g : G) (comms : List G)
    (hc : ∀ i (hi : i < comms.length), comms[i] = p.eval (Spec.point r i) • g)
    (ht : t + 2 ≤ comms.length) (hn : comms.length ≤ r) (hcap : comms.length < 2 ^ 58) :
    (ensureDegree m rng comms t).isOk :=
  ⟨_, ensureDegree_codeword m rng ht hn hcap (codeword_of_poly hp hc)⟩

/-- **C12** for polynomials with group coefficients (unknown discrete logarithms), with the state of the generator. -/
theorem C12_group (m : Mode) (rng : Rng r) (t : ℕ) (comms : List G) (hc : Spec.Codeword r t comms)
    (ht : t + 2 ≤ comms.length) (hn : comms.length ≤ r) (hcap : comms.length < 2 ^ 58) :
    ensureDegree m rng comms t = .ok (rng.drop (comms.length - t - 1)) :=
  ensureDegree_codeword m rng ht hn hcap hc

/-- Non-vacuity: `p = 5 + 2X` at `1, …, 4`. -/
example (rng : Rng 13) : (ensureDegree (r := 13) .checked rng [(7 : ZMod 13), 9, 11, 0] 1).isOk :=
  C12 .checked rng 1 (C 5 + C 2 * X) (by compute_degree) (1 : ZMod 13) _ (by
    intro i hi
    match i, hi with
    | 0, _ => simp [Spec.point]; decide
    | 1, _ => simp [Spec.point]; decide
    | 2, _ => simp [Spec.point]; decide
    | 3, _ => simp [Spec.point]; decide) (by decide) (by decide) (by decide)

/-! ### C13 -/

/-- A random stream whose first `N` values are `c`. -/
def Spec.withPrefix {N : ℕ} (c : Fin N → ZMod r) (tail : ℕ → ZMod r) : Rng r :=
  fun i => if h : i < N then c ⟨i, h⟩ else tail i

open Classical in
/-- **C13**. If the vector is not a codeword, at most a `1/r` fraction of the draws of the challenge polynomial is
accepted, and every other draw gives `DualCodeError`. -/
theorem C13 (m : Mode) (t : ℕ) (comms : List G) (hc : ¬ Spec.Codeword r t comms)
    (ht : t + 2 ≤ comms.length) (hn : comms.length ≤ r) (hcap : comms.length < 2 ^ 58) (tail : ℕ → ZMod r) :
    (univ.filter fun c : Fin (comms.length - t - 1) → ZMod r =>
        (ensureDegree m (Spec.withPrefix c tail) comms t).isOk).card * r
      ≤ Fintype.card (Fin (comms.length - t - 1) → ZMod r) ∧
    ∀ rng : Rng r, (ensureDegree m rng comms t).isOk ∨ ensureDegree m rng comms t = .err .DualCodeError := by
  constructor
  · have hk : ∃ k, k + t + 2 ≤ comms.length ∧ dualCoeff (r := r) comms k ≠ 0 := by
      by_contra h
      push Not at h
      exact hc (codeword_of_dualCoeff hn h)
    obtain ⟨k, hk, hk0⟩ := hk
    have hcard := card_linear_le (r := r) (N := comms.length - t - 1) (fun i => dualCoeff (r := r) comms i) 0
      (k := ⟨k, by omega⟩) hk0
    rw [Fintype.card_fun, Fintype.card_fin, ZMod.card]
    refine le_trans (Nat.mul_le_mul_right _ (card_le_card ?_)) hcard
    intro c hc'
    simp only [mem_filter, mem_univ, true_and] at hc' ⊢
    rw [ensureDegree_eq m _ comms ht hn hcap, dualSum_range] at hc'
    split at hc'
    · obtain ⟨a, ha⟩ := hc'
      cases ha
    · rename_i h0
      rw [not_not, ← Fin.sum_univ_eq_sum_range (fun k => Spec.withPrefix c tail k • dualCoeff (r := r) comms k)] at h0
      rw [← h0]
      refine sum_congr rfl fun i _ => ?_
      simp [Spec.withPrefix]
  · intro rng
    rw [ensureDegree_eq m _ comms ht hn hcap]
    split
    · exact Or.inr rfl
    · exact Or.inl ⟨_, rfl⟩

/-- Non-vacuity: `1, 2, 4` is not an evaluation of a linear polynomial at `1, 2, 3`. -/
example : ¬ Spec.Codeword 13 1 [(1 : ZMod 13), 2, 4] := by
  rintro ⟨A, hA⟩
  have h0 := hA 0 (by decide)
  have h1 := hA 1 (by decide)
  have h2 := hA 2 (by decide)
  simp [Finset.sum_range_succ, Spec.point] at h0 h1 h2
  have : (0 : ZMod 13) = 1 := by linear_combination 2 * h1 - h0 - h2
  exact absurd this (by decide)

/-! ### C14 -/

/-- **C14** (error). `InsufficientEvaluationsError` is returned iff `n < degree`. -/
theorem C14_err (m : Mode) (rng : Rng r) (comms : List G) (t : ℕ) :
    ensureDegree m rng comms t = .err .InsufficientEvaluationsError ↔ comms.length < t := by
  constructor
  · intro h
    by_contra hlt
    rcases ensureDegree_cases m rng comms hlt with ⟨a, h'⟩ | h' | h' <;> rw [h'] at h <;> cases h
  · intro h
    unfold ensureDegree
    rw [if_pos h]

/-- **C14** (`n = degree`). The call panics in every build. -/
theorem C14_eq (m : Mode) (rng : Rng r) (comms : List G) : ensureDegree m rng comms comms.length = .panic := by
  unfold ensureDegree
  rw [if_neg (by omega)]
  cases m <;> simp [subU64, polyRand, polyCount, addU64]

/-- **C14** (`n = degree + 1`). With overflow checks the call panics. -/
theorem C14_succ_checked (rng : Rng r) (comms : List G) (t : ℕ) (h : comms.length = t + 1) :
    ensureDegree .checked rng comms t = .panic := by
  unfold ensureDegree
  rw [if_neg (by omega)]
  simp [subU64, h]

/-- **C14** (`n = degree + 1`). Without overflow checks, when the coefficient loop is `0..(d+1)`, zero coefficients are
drawn and every vector is accepted. -/
theorem C14_succ_wrapping (rng : Rng r) (comms : List G) (t : ℕ) (h : comms.length = t + 1) (hn : comms.length ≤ r) :
    (ensureDegree .wrapping rng comms t).isOk := by
  unfold ensureDegree
  rw [if_neg (by omega)]
  have h1 : (subU64 .wrapping comms.length t : Res PVSSError ℕ) = .ok 1 := by
    unfold subU64; rw [if_pos (by omega)]; congr 1; omega
  have h2 : (subU64 .wrapping 1 2 : Res PVSSError ℕ) = .ok (2 ^ 64 - 1) := by
    unfold subU64; rw [if_neg (by omega)]; rfl
  have h3 : (polyRand .wrapping rng (2 ^ 64 - 1) : Res PVSSError _) = .ok ([], rng.drop 0) := by
    simp [polyRand, polyCount, addU64, trim]
  rw [h1, Res.bind_ok', h2, Res.bind_ok', h3, Res.bind_ok']
  simp only
  rw [dualLoop_ok [] comms hn, Res.bind_ok', if_neg]
  · exact ⟨_, rfl⟩
  · simp [dualSum, polyEval]

/-- **C14** (`n = degree + 1`). Without overflow checks, when the coefficient loop is `0..=d`, the call panics (it cannot
allocate `2^64` coefficients). -/
theorem C14_succ_wrappingIncl (rng : Rng r) (comms : List G) (t : ℕ) (h : comms.length = t + 1) :
    ensureDegree .wrappingIncl rng comms t = .panic := by
  unfold ensureDegree
  rw [if_neg (by omega)]
  simp [subU64, polyRand, polyCount, h]

/-- **C14** (`n ≥ degree + 2`). The call returns `Ok` or `DualCodeError`; it neither panics nor loops. -/
theorem C14_ge (m : Mode) (rng : Rng r) (comms : List G) (t : ℕ) (ht : t + 2 ≤ comms.length) (hn : comms.length ≤ r)
    (hcap : comms.length < 2 ^ 58) :
    (ensureDegree m rng comms t).isOk ∨ ensureDegree m rng comms t = .err .DualCodeError := by
  rw [ensureDegree_eq m _ comms ht hn hcap]
  split
  · exact Or.inr rfl
  · exact Or.inl ⟨_, rfl⟩

/-- Non-vacuity: the same two commitments under `degree = 1`, by build. -/
example (rng : Rng 13) : ensureDegree (r := 13) .checked rng [(1 : ZMod 13), 2] 1 = .panic ∧
    (ensureDegree (r := 13) .wrapping rng [(1 : ZMod 13), 2] 1).isOk ∧
    ensureDegree (r := 13) .checked rng [(1 : ZMod 13), 2] 3 = .err .InsufficientEvaluationsError :=
  ⟨C14_succ_checked _ _ _ rfl, C14_succ_wrapping _ _ _ rfl (by decide), (C14_err _ _ _ _).2 (by decide)⟩

end Verif
