import Verif.Lemmas.Poly
import Verif.Lemmas.Count
import Verif.Spec

/-! Lemmas on the degree check used by several property files. -/

open Finset Polynomial

namespace Verif

set_option linter.unusedSectionVars false

variable {r : ℕ} [Fact r.Prime] {G : Type} [AddCommGroup G] [DecidableEq G] [Module (ZMod r) G]

/-- The coefficient of the `k`-th random scalar in the dual-code sum. -/
noncomputable def dualCoeff (evs : List G) (k : ℕ) : G :=
  ∑ i ∈ range evs.length, (node r i ^ k * Lagrange.nodalWeight (range evs.length) (node r) i) • evs.getD i 0

theorem dualSum_range (c : ℕ → ZMod r) (N : ℕ) (evs : List G) :
    dualSum ((List.range N).map c) evs = ∑ k ∈ range N, c k • dualCoeff (r := r) evs k := by
  unfold dualSum dualCoeff
  simp only [polyEval_range, smul_sum, smul_smul]
  rw [sum_comm]
  refine sum_congr rfl fun i _ => ?_
  rw [sum_mul, sum_smul]
  refine sum_congr rfl fun k _ => ?_
  rw [mul_assoc]

theorem dualCoeff_eq_zero {evs : List G} {t : ℕ} (hn : evs.length ≤ r) (h : Spec.Codeword r t evs) {k : ℕ}
    (hk : k + t + 2 ≤ evs.length) : dualCoeff (r := r) evs k = 0 := by
  obtain ⟨A, hA⟩ := h
  have := dual_complete (node_injOn hn) A t (X ^ k) (by simpa using hk)
  refine Eq.trans ?_ this
  unfold dualCoeff
  refine sum_congr rfl fun i hi => ?_
  have hi' : i < evs.length := by simpa using hi
  rw [getD_lt 0 hi', hA i hi', eval_pow, eval_X]
  rfl

theorem codeword_of_dualCoeff {evs : List G} {t : ℕ} (hn : evs.length ≤ r)
    (h : ∀ k, k + t + 2 ≤ evs.length → dualCoeff (r := r) evs k = 0) : Spec.Codeword r t evs := by
  obtain ⟨A, hA⟩ := dual_sound (M := G) (node_injOn hn) t (fun i => evs.getD i 0) (fun k hk => h k (by simpa using hk))
  refine ⟨A, fun i hi => ?_⟩
  have := hA i (by simpa using hi)
  rw [getD_lt 0 hi] at this
  exact this

theorem ensureDegree_codeword (m : Mode) (rng : Rng r) {evs : List G} {t : ℕ} (ht : t + 2 ≤ evs.length)
    (hn : evs.length ≤ r) (hcap : evs.length < 2 ^ 58) (h : Spec.Codeword r t evs) :
    ensureDegree m rng evs t = .ok (rng.drop (evs.length - t - 1)) := by
  rw [ensureDegree_eq m rng evs ht hn hcap, if_neg]
  rw [not_not, dualSum_range]
  refine sum_eq_zero fun k hk => ?_
  have hk' : k < evs.length - t - 1 := by simpa using hk
  rw [dualCoeff_eq_zero hn h (by omega), smul_zero]

theorem codeword_of_poly {p : (ZMod r)[X]} {t : ℕ} (hp : p.natDegree ≤ t) {g : G} {v : List G}
    (h : ∀ i (hi : i < v.length), v[i] = p.eval (Spec.point r i) • g) : Spec.Codeword r t v := by
  refine ⟨fun k => p.coeff k • g, fun i hi => ?_⟩
  rw [h i hi, eval_eq_sum_range' (lt_of_le_of_lt hp (Nat.lt_succ_self t)), sum_smul]
  refine sum_congr rfl fun k _ => ?_
  rw [smul_smul, mul_comm]

theorem subU64_total {ε : Type} (m : Mode) (a b : ℕ) : (subU64 m a b : Res ε ℕ).Total := by
  unfold subU64
  split
  · exact .ok _
  · cases m
    · exact .panic
    · exact .ok _
    · exact .ok _

theorem polyRand_total {ε : Type} (m : Mode) (rng : Rng r) (d : ℕ) : (polyRand m rng d : Res ε _).Total := by
  have hcnt : (polyCount m d : Res ε ℕ).Total := by
    unfold polyCount addU64
    cases m
    · simp only; split
      · exact .ok _
      · exact .panic
    · simp only; split <;> exact .ok _
    · exact .ok _
  unfold polyRand
  refine hcnt.bind fun c => ?_
  split
  · exact .panic
  · exact .ok _

theorem cperp_total (poly : List (ZMod r)) (n i : ℕ) : (cperp poly n i).Total := by
  unfold cperp
  refine loop_total (fun s x => ?_) _ _
  split
  · exact (invUnwrap_total _).bind fun _ => .ok _
  · exact .ok _

theorem ensureDegree_cases (m : Mode) (rng : Rng r) (comms : List G) {t : ℕ} (hlt : ¬ comms.length < t) :
    (∃ a, ensureDegree m rng comms t = .ok a) ∨ ensureDegree m rng comms t = .panic ∨
      ensureDegree m rng comms t = .err .DualCodeError := by
  unfold ensureDegree
  rw [if_neg hlt]
  rcases subU64_total (ε := PVSSError) m comms.length t with h1 | ⟨a, h1⟩ <;> rw [h1]
  · exact Or.inr (Or.inl rfl)
  rw [Res.bind_ok']
  rcases subU64_total (ε := PVSSError) m a 2 with h2 | ⟨b, h2⟩ <;> rw [h2]
  · exact Or.inr (Or.inl rfl)
  rw [Res.bind_ok']
  rcases polyRand_total (ε := PVSSError) m rng b with h3 | ⟨⟨c, rng'⟩, h3⟩ <;> rw [h3]
  · exact Or.inr (Or.inl rfl)
  rw [Res.bind_ok']
  simp only
  have hl := loop_total (ε := PVSSError) (f := fun (s : G) (i : ℕ) => do
      let c ← cperp c comms.length i
      let ev ← idx comms (i - 1)
      .ok (s + mulRepr ev c)) (fun s i => (cperp_total _ _ _).bind fun _ => (idx_total _ _).bind fun _ => .ok _)
      0 (range1 comms.length)
  rcases hl with h4 | ⟨s, h4⟩ <;> rw [h4]
  · exact Or.inr (Or.inl rfl)
  rw [Res.bind_ok']
  split
  · exact Or.inr (Or.inr rfl)
  · exact Or.inl ⟨_, rfl⟩

end Verif
