import Verif.Lemmas.Poly
import Verif.Spec
import Verif.Toy

/-!
# Interpolation: C06, C07, C08, C10
-/

open Finset Polynomial

set_option linter.unusedSectionVars false

namespace Verif
variable {r : ℕ} [Fact r.Prime] {G : Type} [AddCommGroup G] [DecidableEq G] [Module (ZMod r) G]

/-! ### helpers -/

theorem injOn_getD_of_nodup {α : Type} (d : α) {l : List α} {k : ℕ} (hk : k ≤ l.length) (h : (l.take k).Nodup) :
    Set.InjOn (fun i => l.getD i d) (range k : Finset ℕ) := by
  intro a ha b hb hab
  simp only [coe_range, Set.mem_Iio] at ha hb
  simp only [getD_lt d (by omega : a < l.length), getD_lt d (by omega : b < l.length)] at hab
  have h1 : (l.take k)[a]'(by simp; omega) = (l.take k)[b]'(by simp; omega) := by simpa using hab
  exact (List.Nodup.getElem_inj_iff h).1 h1

theorem nodup_of_injOn_getD {α : Type} (d : α) {l : List α} {k : ℕ} (hk : k ≤ l.length)
    (h : Set.InjOn (fun i => l.getD i d) (range k : Finset ℕ)) : (l.take k).Nodup := by
  rw [List.nodup_iff_injective_get]
  intro a b hab
  have ha : (a : ℕ) < k := lt_of_lt_of_le a.2 (by simp)
  have hb : (b : ℕ) < k := lt_of_lt_of_le b.2 (by simp)
  apply Fin.ext
  apply h (by simpa using ha) (by simpa using hb)
  simp only [getD_lt d (by omega : (a : ℕ) < l.length), getD_lt d (by omega : (b : ℕ) < l.length)]
  simpa using hab

theorem eval_smul_eq_evalM (f : (ZMod r)[X]) {t : ℕ} (hf : f.natDegree ≤ t) (x : ZMod r) (g : G) :
    f.eval x • g = evalM (fun k => f.coeff k • g) t x := by
  unfold evalM
  rw [eval_eq_sum_range' (Nat.lt_succ_of_le hf), sum_smul]
  refine sum_congr rfl fun k _ => ?_
  rw [smul_smul, mul_comm]

/-! ### C06 -/

/-- **C06** (G1). `evals` holds the `g`-multiples by `f(x_j)` of a polynomial of degree at most `d`, the first `d + 1` points
are pairwise distinct: interpolation returns `f(0) • g`. Nothing is assumed about surplus evaluations. -/
theorem C06_g1 (m : Mode) (f : (ZMod r)[X]) (d : ℕ) (hf : f.natDegree ≤ d) (g : G) (evals : List G)
    (points : List (ZMod r)) (hlen : evals.length = points.length) (hd : d + 1 ≤ evals.length)
    (h64 : evals.length < 2 ^ 64) (hdist : (points.take (d + 1)).Nodup)
    (hev : ∀ j (h : j < evals.length), j ≤ d → evals[j] = f.eval points[j] • g) :
    lagrangeG1 m evals points d = .ok (f.eval 0 • g) := by
  have hinj := injOn_getD_of_nodup (0 : ZMod r) (by omega) hdist
  rw [lagrangeG1_eq m evals points hd hlen hinj (by omega)]
  congr 1
  rw [recon_exact hinj (fun k => f.coeff k • g), eval_smul_eq_evalM f hf, evalM_zero]
  intro j hj
  rw [getD_lt 0 (by omega : j < evals.length), hev j (by omega) hj, eval_smul_eq_evalM f hf,
    getD_lt 0 (by omega : j < points.length)]

/-- **C06** (G2). The same for `lagrange_interpolation_g2`. -/
theorem C06_g2 (m : Mode) (f : (ZMod r)[X]) (d : ℕ) (hf : f.natDegree ≤ d) (g : G) (evals : List G)
    (points : List (ZMod r)) (hlen : evals.length = points.length) (hd : d + 1 ≤ evals.length)
    (h64 : evals.length < 2 ^ 64) (hdist : (points.take (d + 1)).Nodup)
    (hev : ∀ j (h : j < evals.length), j ≤ d → evals[j] = f.eval points[j] • g) :
    lagrangeG2 m evals points d = .ok (f.eval 0 • g) := by
  have hinj := injOn_getD_of_nodup (0 : ZMod r) (by omega) hdist
  rw [lagrangeG2_eq m evals points hd hlen hinj (by omega)]
  congr 1
  rw [recon_exact hinj (fun k => f.coeff k • g), eval_smul_eq_evalM f hf, evalM_zero]
  intro j hj
  rw [getD_lt 0 (by omega : j < evals.length), hev j (by omega) hj, eval_smul_eq_evalM f hf,
    getD_lt 0 (by omega : j < points.length)]

/-- Non-vacuity of C06: `f = 5 + 2X`, points 4, 0, 7 (one of them zero), a junk surplus evaluation. -/
example : lagrangeG1 .checked [(13 : ZMod 13), 5, 11] [(4 : ZMod 13), 0, 7] 1 = .ok (5 : ZMod 13) := by
  have h := C06_g1 (r := 13) (G := ZMod 13) .checked (C 5 + C 2 * X) 1 (by compute_degree) 1 [13, 5, 11] [4, 0, 7]
    rfl (by decide) (by decide) (by decide) (by
      intro j h hj
      match j, hj with
      | 0, _ => simp; decide
      | 1, _ => simp)
  simpa using h

/-! ### C07 -/

section GT
variable {G1 G2 K : Type} [AddCommGroup G1] [AddCommGroup G2] [Module (ZMod r) G1] [CommMonoid K]

theorem pair_smul {S : Suite r G1 G2 K} (hS : PairLaws S) (a : ZMod r) (P : G1) (Q : G2) :
    S.pair (a • P) Q = S.pair P Q ^ a.val := by
  have hn : ∀ n : ℕ, S.pair (n • P) Q = S.pair P Q ^ n := by
    intro n
    induction n with
    | zero => simp [hS.zero_left]
    | succ n ih => rw [succ_nsmul, hS.add_left, ih, pow_succ]
  rw [← mulRepr_eq_smul, mulRepr, hn]

theorem pair_pow_r {S : Suite r G1 G2 K} (hS : PairLaws S) (P : G1) (Q : G2) : S.pair P Q ^ r = 1 := by
  have hn : ∀ n : ℕ, S.pair (n • P) Q = S.pair P Q ^ n := by
    intro n
    induction n with
    | zero => simp [hS.zero_left]
    | succ n ih => rw [succ_nsmul, hS.add_left, ih, pow_succ]
  rw [← hn, ← Nat.cast_smul_eq_nsmul (ZMod r), ZMod.natCast_self, zero_smul, hS.zero_left]

theorem pow_val_eq {x : K} (hx : x ^ r = 1) {a : ℕ} {b : ZMod r} (h : (a : ZMod r) = b) : x ^ a = x ^ b.val := by
  have : a % r = b.val := by rw [← h, ZMod.val_natCast]
  rw [← this]
  conv_lhs => rw [← Nat.div_add_mod a r, pow_add, pow_mul, hx, one_pow, one_mul]

/-- **C07**. Interpolation in the target group: evaluations `e(f(x_j) g1, h)` at points distinct modulo `r` give
`e(f(0) g1, h)`. -/
theorem C07 (m : Mode) (S : Suite r G1 G2 K) (hS : PairLaws S) (f : (ZMod r)[X]) (d : ℕ) (hf : f.natDegree ≤ d)
    (g1 : G1) (h2 : G2) (evals : List K) (points : List ℕ) (hlen : evals.length = points.length)
    (hd : d + 1 ≤ evals.length) (h64 : evals.length < 2 ^ 64)
    (hdist : ((points.take (d + 1)).map fun p : ℕ => (p : ZMod r)).Nodup)
    (hev : ∀ j (h : j < evals.length), j ≤ d → evals[j] = S.pair (f.eval (points[j] : ZMod r) • g1) h2) :
    lagrangeGt (r := r) m evals points d = .ok (S.pair (f.eval 0 • g1) h2) := by
  have hinj : Set.InjOn (fun k => ((points.getD k 0 : ℕ) : ZMod r)) (range (d + 1) : Finset ℕ) := by
    have := injOn_getD_of_nodup (0 : ZMod r) (l := points.map fun p : ℕ => (p : ZMod r)) (k := d + 1)
      (by simp; omega) (by rwa [← List.map_take])
    intro a ha b hb hab
    have ha' : a < d + 1 := by simpa using ha
    have hb' : b < d + 1 := by simpa using hb
    apply this ha hb
    simp only at hab ⊢
    rw [getD_lt 0 (by omega : a < points.length), getD_lt 0 (by omega : b < points.length)] at hab
    rw [getD_lt _ (by simp; omega), getD_lt _ (by simp; omega)]
    simpa using hab
  rw [lagrangeGt_eq m evals points hd hlen hinj (by omega)]
  congr 1
  set y : ℕ → ZMod r := fun k => ((points.getD k 0 : ℕ) : ZMod r) with hy
  have hterm : ∀ j ∈ range (d + 1), evals.getD j 1 ^ (lag0 y d j).val
      = S.pair g1 h2 ^ ((f.eval (y j)).val * (lag0 y d j).val) := by
    intro j hj
    have hj' : j < d + 1 := by simpa using hj
    rw [getD_lt 1 (by omega : j < evals.length), hev j (by omega) (by omega), pair_smul hS, ← pow_mul]
    simp only [hy]
    rw [getD_lt 0 (by omega : j < points.length)]
  rw [prod_congr rfl hterm, prod_pow_eq_pow_sum, pair_smul hS]
  apply pow_val_eq (pair_pow_r hS g1 h2)
  push_cast
  have := recon_exact (G := ZMod r) (x := y) (evs := (List.range (d + 1)).map fun j => f.eval (y j)) (t := d) hinj
    (fun k => f.coeff k) (fun j hj => by
      rw [getD_lt _ (by simp; omega)]
      simp only [List.getElem_map, List.getElem_range]
      have := eval_smul_eq_evalM f hf (y j) (1 : ZMod r)
      simpa using this)
  rw [← coeff_zero_eq_eval_zero, ← this]
  unfold recon
  refine sum_congr rfl fun j hj => ?_
  have hj' : j < d + 1 := by simpa using hj
  rw [getD_lt _ (by simpa using hj')]
  simp [mul_comm]

/-- Non-vacuity of C07 in the toy pairing with `r = 13`: `f = 5 + 2X`, points 4 and 2. -/
example : lagrangeGt (r := 13) .checked [(Multiplicative.ofAdd (0 : ZMod 13)), .ofAdd 1] [4, 2] 1
    = .ok ((Toy.suite 13).pair (((C 5 + C 2 * X : (ZMod 13)[X])).eval 0 • 3) 1) :=
  C07 (r := 13) .checked (Toy.suite 13) (Toy.pairLaws 13) (C 5 + C 2 * X) 1 (by compute_degree) (3 : ZMod 13) (1 : ZMod 13)
    _ _ rfl (by decide) (by decide) (by decide) (by
      intro j h hj
      match j, hj with
      | 0, _ => simp [Toy.suite]; decide
      | 1, _ => simp [Toy.suite]; decide)

end GT

/-! ### C08 -/

/-- **C08** (value). On the commitments `p(i+1) • g` of a polynomial of degree at most `t`, interpolation at zero returns
`p(0) • g`. -/
theorem C08 (m : Mode) (f : (ZMod r)[X]) (t : ℕ) (hf : f.natDegree ≤ t) (g : G) (comms : List G)
    (ht : t < comms.length) (hr : comms.length ≤ r) (h64 : comms.length < 2 ^ 64)
    (hc : ∀ i (h : i < comms.length), i ≤ t → comms[i] = f.eval (Spec.point r i) • g) :
    lagrangeSimple (r := r) m comms t = .ok (f.eval 0 • g) := by
  rw [lagrangeSimple_eq m comms ht (by omega) (by omega)]
  congr 1
  rw [recon_exact (node_injOn (by omega)) (fun k => f.coeff k • g), eval_smul_eq_evalM f hf, evalM_zero]
  intro j hj
  rw [getD_lt 0 (by omega : j < comms.length), hc j (by omega) hj, eval_smul_eq_evalM f hf]
  rfl

/-- **C08** (group-valued polynomials). On any codeword the value at zero is returned, also when the degree-`t` polynomial has
coefficients of unknown discrete logarithm. -/
theorem C08_group (m : Mode) (t : ℕ) (A : ℕ → G) (comms : List G)
    (ht : t < comms.length) (hr : comms.length ≤ r) (h64 : comms.length < 2 ^ 64)
    (hc : ∀ i (h : i < comms.length), i ≤ t → comms[i] = ∑ k ∈ range (t + 1), Spec.point r i ^ k • A k) :
    lagrangeSimple (r := r) m comms t = .ok (A 0) := by
  rw [lagrangeSimple_eq m comms ht (by omega) (by omega)]
  congr 1
  apply recon_exact (node_injOn (by omega))
  intro j hj
  rw [getD_lt 0 (by omega : j < comms.length), hc j (by omega) hj]
  rfl

/-- **C08** (linearity). Interpolation is linear in the commitment vector. -/
theorem C08_linear (m : Mode) (t : ℕ) (a b : ZMod r) (u v : List G) (huv : u.length = v.length)
    (ht : t < u.length) (hr : u.length ≤ r) (h64 : u.length < 2 ^ 64) :
    ∃ x y, lagrangeSimple (r := r) m u t = .ok x ∧ lagrangeSimple (r := r) m v t = .ok y ∧
      lagrangeSimple (r := r) m ((u.zip v).map fun p => a • p.1 + b • p.2) t = .ok (a • x + b • y) := by
  refine ⟨_, _, lagrangeSimple_eq m u ht (by omega) (by omega),
    lagrangeSimple_eq m v (by omega) (by omega) (by omega), ?_⟩
  rw [lagrangeSimple_eq m _ (by simp; omega) (by omega) (by omega)]
  congr 1
  unfold recon
  rw [smul_sum, smul_sum, ← sum_add_distrib]
  refine sum_congr rfl fun j hj => ?_
  have hj' : j < t + 1 := by simpa using hj
  rw [getD_lt 0 (by simp; omega), getD_lt 0 (by omega : j < u.length), getD_lt 0 (by omega : j < v.length)]
  simp only [List.getElem_map, List.getElem_zip, smul_add, smul_smul]
  rw [mul_comm a, mul_comm b]

/-- Non-vacuity of C08: `p = 5 + 2X` at 1, 2, 3. -/
example : lagrangeSimple (r := 13) .checked [(7 : ZMod 13), 9, 11] 1 = .ok 5 := by
  have h := C08 (r := 13) (G := ZMod 13) .checked (C 5 + C 2 * X) 1 (by compute_degree) 1 [7, 9, 11]
    (by decide) (by decide) (by decide) (by
      intro j h hj
      match j, hj with
      | 0, _ => simp [Spec.point]; decide
      | 1, _ => simp [Spec.point]; decide)
  simpa using h

/-! ### C10 -/

theorem lagCoeff_total {x : ℕ → Res PVSSError (ZMod r)} (hx : ∀ k, (x k).Total) (t j : ℕ) : (lagCoeff x t j).Total := by
  unfold lagCoeff
  refine (hx j).bind fun xj => loop_total (fun s k => ?_) _ _
  split
  · exact (hx k).bind fun xk => (invUnwrap_total _).bind fun _ => .ok _
  · exact .ok _

/-- If a Lagrange coefficient is computed without panic, its node differs from all the others. -/
theorem lagCoeff_ok_ne {x : ℕ → Res PVSSError (ZMod r)} {y : ℕ → ZMod r} {t j : ℕ} {c : ZMod r}
    (hx : ∀ k ≤ t, x k = .ok (y k)) (hj : j ≤ t) (h : lagCoeff x t j = .ok c) : ∀ k ≤ t, k ≠ j → y k ≠ y j := by
  intro k hk hkj heq
  unfold lagCoeff at h
  rw [hx j hj, Res.bind_ok'] at h
  obtain ⟨s1, s2, h1⟩ := loop_ok_forall h k (by simpa [Nat.lt_succ_iff] using hk)
  rw [if_pos (Ne.symm hkj), hx k hk, Res.bind_ok', heq, sub_self, Res.bind_eq_ok] at h1
  obtain ⟨z, h1, _⟩ := h1
  rw [invUnwrap_eq_ok] at h1
  exact h1.1 rfl

theorem reconLoop_panic_of_dup {x : ℕ → Res PVSSError (ZMod r)} {y : ℕ → ZMod r} {evs : List G} {t : ℕ}
    (hx : ∀ k ≤ t, x k = .ok (y k)) (hxt : ∀ k, (x k).Total)
    (hy : ¬ Set.InjOn y (range (t + 1) : Finset ℕ)) :
    loop (fun (sum : G) (j : ℕ) => do
        let prod ← lagCoeff x t j
        let ev ← idx evs j
        .ok (sum + mulRepr ev prod))
      0 (List.range (t + 1)) = .panic := by
  have htot := loop_total (ε := PVSSError) (f := fun (sum : G) (j : ℕ) => do
        let prod ← lagCoeff x t j
        let ev ← idx evs j
        .ok (sum + mulRepr ev prod)) (fun s j => (lagCoeff_total hxt t j).bind fun _ =>
          (idx_total _ _).bind fun _ => .ok _) 0 (List.range (t + 1))
  rcases htot with h | ⟨a, h⟩
  · exact h
  · exfalso
    apply hy
    intro i hi j hj hij
    by_contra hne
    have hi' : i ≤ t := by simpa [Nat.lt_succ_iff] using hi
    have hj' : j ≤ t := by simpa [Nat.lt_succ_iff] using hj
    obtain ⟨s1, s2, h1⟩ := loop_ok_forall h j (by simpa [Nat.lt_succ_iff] using hj')
    rw [Res.bind_eq_ok] at h1
    obtain ⟨c, hc, _⟩ := h1
    exact lagCoeff_ok_ne hx hj' hc i hi' hne hij

/-- The four outcomes of an interpolation call, in the order in which the code checks for them. -/
def InterpOutcome {α β γ : Type} (evals : List α) (points : List β) (distinct : Prop) (d : ℕ) (out : Res PVSSError γ) :
    Prop :=
  (out = .err .InsufficientEvaluationsError ↔ evals.length < d + 1) ∧
  (out = .err .DifferentPointsEvalsError ↔ d + 1 ≤ evals.length ∧ evals.length ≠ points.length) ∧
  (out = .panic ↔ d + 1 ≤ evals.length ∧ evals.length = points.length ∧ ¬ distinct) ∧
  ((∃ v, out = .ok v) ↔ d + 1 ≤ evals.length ∧ evals.length = points.length ∧ distinct)

/-- **C10** (G1). -/
theorem C10_g1 (m : Mode) (evals : List G) (points : List (ZMod r)) (d : ℕ) (h64 : d + 1 < 2 ^ 64) :
    InterpOutcome evals points (points.take (d + 1)).Nodup d (lagrangeG1 m evals points d) := by
  by_cases h1 : evals.length < d + 1
  · have : lagrangeG1 m evals points d = .err .InsufficientEvaluationsError := by
      unfold lagrangeG1
      rw [addU64_ok m h64, Res.bind_ok', if_pos h1]
    rw [this]
    refine ⟨by simp [h1], ?_, ?_, ?_⟩ <;> simp <;> omega
  by_cases h2 : evals.length ≠ points.length
  · have : lagrangeG1 m evals points d = .err .DifferentPointsEvalsError := by
      unfold lagrangeG1
      rw [addU64_ok m h64, Res.bind_ok', if_neg h1, if_pos h2]
    rw [this]
    refine ⟨by simpa using h1, ?_, ?_, ?_⟩ <;> simp [h2]
    omega
  push Not at h1 h2
  by_cases h3 : (points.take (d + 1)).Nodup
  · rw [lagrangeG1_eq m evals points h1 h2 (injOn_getD_of_nodup 0 (by omega) h3) h64]
    refine ⟨?_, ?_, ?_, ?_⟩ <;> simp [h3, h2] <;> omega
  · have : lagrangeG1 m evals points d = .panic := by
      unfold lagrangeG1
      rw [addU64_ok m h64, Res.bind_ok', if_neg (by omega), if_neg (by omega)]
      exact reconLoop_panic_of_dup (idx_points_ok (by omega)) (fun k => idx_total _ _)
        (fun h => h3 (nodup_of_injOn_getD 0 (by omega) h))
    rw [this]
    refine ⟨?_, ?_, ?_, ?_⟩ <;> simp [h3, h2] <;> omega

/-- **C10** (G2). -/
theorem C10_g2 (m : Mode) (evals : List G) (points : List (ZMod r)) (d : ℕ) (h64 : d + 1 < 2 ^ 64) :
    InterpOutcome evals points (points.take (d + 1)).Nodup d (lagrangeG2 m evals points d) := by
  by_cases h1 : evals.length < d + 1
  · have : lagrangeG2 m evals points d = .err .InsufficientEvaluationsError := by
      unfold lagrangeG2
      rw [addU64_ok m h64, Res.bind_ok', if_pos h1]
    rw [this]
    refine ⟨by simp [h1], ?_, ?_, ?_⟩ <;> simp <;> omega
  by_cases h2 : evals.length ≠ points.length
  · have : lagrangeG2 m evals points d = .err .DifferentPointsEvalsError := by
      unfold lagrangeG2
      rw [addU64_ok m h64, Res.bind_ok', if_neg h1, if_pos h2]
    rw [this]
    refine ⟨by simpa using h1, ?_, ?_, ?_⟩ <;> simp [h2]
    omega
  push Not at h1 h2
  by_cases h3 : (points.take (d + 1)).Nodup
  · rw [lagrangeG2_eq m evals points h1 h2 (injOn_getD_of_nodup 0 (by omega) h3) h64]
    refine ⟨?_, ?_, ?_, ?_⟩ <;> simp [h3, h2] <;> omega
  · have : lagrangeG2 m evals points d = .panic := by
      unfold lagrangeG2
      rw [addU64_ok m h64, Res.bind_ok', if_neg (by omega), if_neg (by omega)]
      exact reconLoop_panic_of_dup (idx_points_ok (by omega)) (fun k => idx_total _ _)
        (fun h => h3 (nodup_of_injOn_getD 0 (by omega) h))
    rw [this]
    refine ⟨?_, ?_, ?_, ?_⟩ <;> simp [h3, h2] <;> omega

/-- **C10** (GT). Points coincide when they are congruent modulo the group order. -/
theorem C10_gt {K : Type} [CommMonoid K] (m : Mode) (evals : List K) (points : List ℕ) (d : ℕ) (h64 : d + 1 < 2 ^ 64) :
    InterpOutcome evals points ((points.take (d + 1)).map fun p : ℕ => (p : ZMod r)).Nodup d
      (lagrangeGt (r := r) m evals points d) := by
  by_cases h1 : evals.length < d + 1
  · have : lagrangeGt (r := r) m evals points d = .err .InsufficientEvaluationsError := by
      unfold lagrangeGt
      rw [addU64_ok m h64, Res.bind_ok', if_pos h1]
    rw [this]
    refine ⟨by simp [h1], ?_, ?_, ?_⟩ <;> simp <;> omega
  by_cases h2 : evals.length ≠ points.length
  · have : lagrangeGt (r := r) m evals points d = .err .DifferentPointsEvalsError := by
      unfold lagrangeGt
      rw [addU64_ok m h64, Res.bind_ok', if_neg h1, if_pos h2]
    rw [this]
    refine ⟨by simpa using h1, ?_, ?_, ?_⟩ <;> simp [h2]
    omega
  push Not at h1 h2
  have hx : ∀ k ≤ d, nodeU64 points k = .ok (((points.map fun p : ℕ => (p : ZMod r)).getD k 0)) := by
    intro k hk
    unfold nodeU64
    rw [idx_ok (by omega), Res.bind_ok', getD_lt _ (by simp; omega)]
    simp
  by_cases h3 : ((points.take (d + 1)).map fun p : ℕ => (p : ZMod r)).Nodup
  · rw [List.map_take] at h3
    have hinj := injOn_getD_of_nodup (0 : ZMod r) (by simp; omega) h3
    have : ∃ v, lagrangeGt (r := r) m evals points d = .ok v := by
      refine ⟨_, lagrangeGt_eq m evals points h1 h2 ?_ h64⟩
      intro a ha b hb hab
      have ha' : a < d + 1 := by simpa using ha
      have hb' : b < d + 1 := by simpa using hb
      apply hinj ha hb
      simp only at hab ⊢
      rw [getD_lt 0 (by omega : a < points.length), getD_lt 0 (by omega : b < points.length)] at hab
      rw [getD_lt _ (by simp; omega), getD_lt _ (by simp; omega)]
      simpa using hab
    obtain ⟨v, hv⟩ := this
    rw [← List.map_take] at h3
    rw [hv, eq_true h3]
    refine ⟨?_, ?_, ?_, ?_⟩ <;> simp [h2] <;> omega
  · have : lagrangeGt (r := r) m evals points d = .panic := by
      unfold lagrangeGt
      rw [addU64_ok m h64, Res.bind_ok', if_neg (by omega), if_neg (by omega)]
      have hxt : ∀ k, (nodeU64 (r := r) points k).Total := fun k => (idx_total _ _).bind fun _ => .ok _
      have htot := loop_total (ε := PVSSError) (f := fun (result : K) (j : ℕ) => do
        let prod ← lagCoeff (r := r) (nodeU64 points) d j
        let ev ← idx evals j
        .ok (result * ev ^ prod.val)) (fun s j => (lagCoeff_total hxt d j).bind fun _ =>
          (idx_total _ _).bind fun _ => .ok _) 1 (List.range (d + 1))
      rcases htot with h | ⟨a, h⟩
      · exact h
      · exfalso
        apply h3
        rw [List.map_take]
        refine nodup_of_injOn_getD 0 (by simp; omega) ?_
        intro i hi j hj hij
        by_contra hne
        have hi' : i ≤ d := by simpa [Nat.lt_succ_iff] using hi
        have hj' : j ≤ d := by simpa [Nat.lt_succ_iff] using hj
        obtain ⟨s1, s2, h1⟩ := loop_ok_forall h j (by simpa [Nat.lt_succ_iff] using hj')
        rw [Res.bind_eq_ok] at h1
        obtain ⟨c, hc, _⟩ := h1
        exact lagCoeff_ok_ne hx hj' hc i hi' hne hij
    rw [this, eq_false h3]
    refine ⟨?_, ?_, ?_, ?_⟩ <;> simp [h2] <;> omega

/-- **C10** (`lagrange_interpolation_simple`): its points `1, …, degree+1` coincide modulo `r` exactly when `r < degree + 1`. -/
theorem C10_simple (m : Mode) (evals : List G) (d : ℕ) (h64 : d + 1 < 2 ^ 64) :
    (lagrangeSimple (r := r) m evals d = .err .InsufficientEvaluationsError ↔ evals.length < d + 1) ∧
    (lagrangeSimple (r := r) m evals d = .panic ↔ d + 1 ≤ evals.length ∧ r < d + 1) ∧
    ((∃ v, lagrangeSimple (r := r) m evals d = .ok v) ↔ d + 1 ≤ evals.length ∧ d + 1 ≤ r) := by
  by_cases h1 : evals.length < d + 1
  · have : lagrangeSimple (r := r) m evals d = .err .InsufficientEvaluationsError := by
      unfold lagrangeSimple
      rw [addU64_ok m h64, Res.bind_ok', if_pos h1]
    rw [this]
    refine ⟨by simp [h1], ?_, ?_⟩ <;> simp <;> omega
  push Not at h1
  by_cases h2 : d + 1 ≤ r
  · rw [lagrangeSimple_eq m evals h1 h2 h64]
    refine ⟨?_, ?_, ?_⟩ <;> simp <;> omega
  · have : lagrangeSimple (r := r) m evals d = .panic := by
      unfold lagrangeSimple
      rw [addU64_ok m h64, Res.bind_ok', if_neg (by omega)]
      refine reconLoop_panic_of_dup (y := node r) (fun k hk => nodeSimple_ok m (by omega)) (fun k => ?_) ?_
      · unfold nodeSimple addU64
        split
        · exact .ok _
        · cases m
          · exact .panic
          · exact .ok _
          · exact .ok _
      · intro h
        have hr : 2 ≤ r := (Fact.out : r.Prime).two_le
        have := h (x₁ := 0) (by simp) (x₂ := r) (by simp; omega) (by simp [node])
        omega
    rw [this]
    refine ⟨?_, ?_, ?_⟩ <;> simp <;> omega

/-- Non-vacuity of C10: each outcome occurs. -/
example : lagrangeG1 (r := 13) (G := ZMod 13) .checked [1, 2] [1] 2 = .err .InsufficientEvaluationsError ∧
    lagrangeG1 (r := 13) (G := ZMod 13) .checked [1, 2] [1] 1 = .err .DifferentPointsEvalsError ∧
    lagrangeG1 (r := 13) (G := ZMod 13) .checked [1, 2] [4, 17] 1 = .panic ∧
    ∃ v, lagrangeG1 (r := 13) (G := ZMod 13) .checked [1, 2] [4, 5] 1 = .ok v := by
  refine ⟨by decide, by decide, ?_, ?_⟩
  · exact (C10_g1 _ _ _ _ (by decide)).2.2.1.2 (by decide)
  · exact (C10_g1 _ _ _ _ (by decide)).2.2.2.2 (by decide)

end Verif
