import Verif.Props.Aggregate

/-! Sums of transcripts, and what is preserved by them. -/

open Finset Polynomial

namespace Verif

set_option linter.unusedSectionVars false

variable {r : ℕ} [Fact r.Prime] {G1 G2 K : Type}
  [AddCommGroup G1] [DecidableEq G1] [AddCommGroup G2] [DecidableEq G2] [CommMonoid K] [DecidableEq K]
  [Module (ZMod r) G1] [Module (ZMod r) G2]

theorem ensureDegree_le {m : Mode} {rng rng' : Rng r} {comms : List G2} {t : ℕ}
    (h : ensureDegree m rng comms t = .ok rng') : t + 1 ≤ comms.length := by
  by_contra hlt
  rcases Nat.lt_or_ge comms.length t with h1 | h1
  · rw [(C14_err m rng comms t).2 h1] at h
    cases h
  · obtain rfl : t = comms.length := by omega
    rw [C14_eq m rng comms] at h
    cases h

theorem core_lengths {a b c : PVSSCore G1 G2} (h : a.aggregate b = .ok c) :
    c.encs.length = a.encs.length ∧ c.comms.length = a.comms.length ∧ b.encs.length = a.encs.length ∧
      b.comms.length = a.comms.length := by
  obtain ⟨h1, h2, h3, h4, h5, h6⟩ := (coreAggregate_iff _ _ _).1 h
  exact ⟨by rw [h5]; simp [h3], by rw [h6]; simp [h2], h3.symm, h2.symm⟩

theorem core_getElem {a b c : PVSSCore G1 G2} (h : a.aggregate b = .ok c) :
    (∀ i (h1 : i < c.encs.length) (h2 : i < a.encs.length) (h3 : i < b.encs.length), c.encs[i] = a.encs[i] + b.encs[i]) ∧
    (∀ i (h1 : i < c.comms.length) (h2 : i < a.comms.length) (h3 : i < b.comms.length),
      c.comms[i] = a.comms[i] + b.comms[i]) := by
  obtain ⟨h1, h2, h3, h4, h5, h6⟩ := (coreAggregate_iff _ _ _).1 h
  constructor
  · intro i k1 k2 k3
    simp only [h5, List.getElem_map, List.getElem_zip]
  · intro i k1 k2 k3
    simp only [h6, List.getElem_map, List.getElem_zip]

theorem shares_add {g2 : G2} {n t : ℕ} {pk : ℕ → G1} {a b c : PVSSCore G1 G2} {p q : (ZMod r)[X]}
    (ha : Spec.Shares g2 n t pk a p) (hb : Spec.Shares g2 n t pk b q) (h : a.aggregate b = .ok c) :
    Spec.Shares g2 n t pk c (p + q) := by
  obtain ⟨l1, l2, l3, l4⟩ := core_lengths h
  obtain ⟨e1, e2⟩ := core_getElem h
  refine ⟨(natDegree_add_le _ _).trans (max_le ha.degree hb.degree), by rw [l1, ha.encs_length],
    by rw [l2, ha.comms_length], fun i hi => ?_, fun i hi => ?_⟩
  · rw [e2 i hi (by omega) (by omega), ha.comm i (by omega), hb.comm i (by omega), eval_add, add_smul]
  · rw [e1 i hi (by omega) (by omega), ha.enc i (by omega), hb.enc i (by omega), eval_add, add_smul]

theorem shares_congr {g2 : G2} {n t : ℕ} {pk pk' : ℕ → G1} {a : PVSSCore G1 G2} {p : (ZMod r)[X]}
    (ha : Spec.Shares g2 n t pk a p) (h : ∀ i < n, pk i = pk' i) : Spec.Shares g2 n t pk' a p := by
  refine ⟨ha.degree, ha.encs_length, ha.comms_length, ha.comm, fun i hi => ?_⟩
  rw [ha.enc i hi, h i (by rw [← ha.encs_length]; exact hi)]

theorem shares_empty (g2 : G2) (n t : ℕ) (pk : ℕ → G1) :
    Spec.Shares g2 n t pk (PVSSCore.empty n) (0 : (ZMod r)[X]) := by
  refine ⟨by simp, by simp [PVSSCore.empty], by simp [PVSSCore.empty], fun i hi => ?_, fun i hi => ?_⟩
  · simp [PVSSCore.empty]
  · simp [PVSSCore.empty]

/-- Both sides of the batched equation are multiplicative. -/
theorem batch_left_add {S : Suite r G1 G2 K} (hS : PairLaws S) (pk : ℕ → G1) (ρ : ZMod r) (u v : List G2)
    (huv : u.length = v.length) :
    ((((u.zip v).map fun e => e.1 + e.2).zipIdx).map fun ci => S.pair (ρ • pk ci.2) ci.1).prod =
      (u.zipIdx.map fun ci => S.pair (ρ • pk ci.2) ci.1).prod * (v.zipIdx.map fun ci => S.pair (ρ • pk ci.2) ci.1).prod := by
  suffices h : ∀ (k : ℕ), ((((u.zip v).map fun e => e.1 + e.2).zipIdx k).map fun ci => S.pair (ρ • pk ci.2) ci.1).prod =
      ((u.zipIdx k).map fun ci => S.pair (ρ • pk ci.2) ci.1).prod *
        ((v.zipIdx k).map fun ci => S.pair (ρ • pk ci.2) ci.1).prod from h 0
  induction u generalizing v with
  | nil =>
    intro k
    cases v with
    | nil => simp
    | cons _ _ => simp at huv
  | cons x u ih =>
    intro k
    cases v with
    | nil => simp at huv
    | cons y v =>
      simp only [List.zip_cons_cons, List.map_cons, List.zipIdx_cons, List.prod_cons]
      rw [ih v (by simpa using huv), hS.add_right, mul_mul_mul_comm]

theorem sum_zip_add {G : Type} [AddCommGroup G] (u v : List G) (huv : u.length = v.length) :
    ((u.zip v).map fun e => e.1 + e.2).sum = u.sum + v.sum := by
  induction u generalizing v with
  | nil =>
    cases v with
    | nil => simp
    | cons _ _ => simp at huv
  | cons x u ih =>
    cases v with
    | nil => simp at huv
    | cons y v =>
      simp only [List.zip_cons_cons, List.map_cons, List.sum_cons]
      rw [ih v (by simpa using huv)]
      abel

/-- If one summand satisfies the batched equation, the sum does iff the other summand does. -/
theorem batchEq_add_iff {S : Suite r G1 G2 K} (hS : PairLaws S) {g2 : G2} {pk : ℕ → G1} {ρ : ZMod r} {a b c : PVSSCore G1 G2}
    (h : a.aggregate b = .ok c) (ha : Spec.BatchEq S g2 pk a ρ) :
    Spec.BatchEq S g2 pk c ρ ↔ Spec.BatchEq S g2 pk b ρ := by
  obtain ⟨h1, h2, h3, h4, h5, h6⟩ := (coreAggregate_iff _ _ _).1 h
  unfold Spec.BatchEq at *
  rw [h5, h6, batch_left_add hS pk ρ _ _ h2, sum_zip_add _ _ h3, smul_add, hS.add_left, ha]
  constructor
  · intro he
    apply hS.mul_right_cancel (P := ρ • a.encs.sum) (Q := g2)
    rw [mul_comm, he, mul_comm]
  · intro he
    rw [he]

/-! ### cores with correct content -/

theorem encOk_add {S : Suite r G1 G2 K} (hS : PairLaws S) {g2 : G2} {pk : G1} {a b c : PVSSCore G1 G2} {i : ℕ}
    (h : a.aggregate b = .ok c) (ha : Spec.EncOk S g2 pk a i) (hb : Spec.EncOk S g2 pk b i) : Spec.EncOk S g2 pk c i := by
  obtain ⟨e, u, h1, h2, h3⟩ := ha
  obtain ⟨e', u', h1', h2', h3'⟩ := hb
  obtain ⟨k1, k2, k3, k4, k5, k6⟩ := (coreAggregate_iff _ _ _).1 h
  refine ⟨e + e', u + u', ?_, ?_, by rw [hS.add_left, hS.add_right, h3, h3']⟩
  · rw [k5, List.getElem?_map, (List.getElem?_zip_eq_some (z := (e, e'))).2 ⟨h1, h1'⟩]
    rfl
  · rw [k6, List.getElem?_map, (List.getElem?_zip_eq_some (z := (u, u'))).2 ⟨h2, h2'⟩]
    rfl

theorem batchEq_of_encOk {S : Suite r G1 G2 K} (hS : PairLaws S) {g2 : G2} {n : ℕ} {pk : ℕ → G1} {core : PVSSCore G1 G2}
    (h1 : core.encs.length = n) (h2 : core.comms.length = n) (h : ∀ i < n, Spec.EncOk S g2 (pk i) core i) (ρ : ZMod r) :
    Spec.BatchEq S g2 pk core ρ := by
  have e1 : core.encs = (List.range n).map fun i => core.encs.getD i 0 := by
    apply List.ext_getElem (by simp [h1])
    intro i hi _
    simp [List.getD_eq_getElem?_getD, List.getElem?_eq_getElem hi]
  have e2 : core.comms.zipIdx = (List.range n).map fun i => (core.comms.getD i 0, i) := by
    apply List.ext_getElem (by simp [h2])
    intro i hi _
    have hi' : i < core.comms.length := by simpa using hi
    simp [List.getD_eq_getElem?_getD, List.getElem?_eq_getElem hi']
  unfold Spec.BatchEq
  rw [e2, List.map_map]
  conv_rhs => rw [e1]
  rw [List.smul_sum, List.map_map, hS.sum_left]
  congr 1
  refine List.map_congr_left fun i hi => ?_
  obtain ⟨e, c, k1, k2, k3⟩ := h i (by simpa using hi)
  simp only [Function.comp, List.getD_eq_getElem?_getD, k1, k2, Option.getD_some]
  have key : ∀ P Q, S.pair (ρ • P) Q = S.pair P Q ^ ρ.val := by
    intro P Q
    rw [← mulRepr_eq_smul, mulRepr, hS.nsmul_left]
  rw [key, key, k3]

/-! ### a successful step -/

theorem step_ok_cases (S : Suite r G1 G2 K) (m : Mode) (a : Aggregator r G1 G2) (op : Op r G1 G2) :
    (a.step S m op).2 = a ∨
    (∃ rng rng' sh tx, op = .share rng sh ∧ a.shareVerify S m rng sh = .ok rng' ∧ a.tx.aggregatePvssShare m sh = .ok tx ∧
      (a.step S m op).2 = { a with tx := tx }) ∨
    (∃ rng rng' ag tx, op = .agg rng ag ∧ a.aggregationVerify S m rng ag = .ok rng' ∧ a.tx.aggregate m ag = .ok tx ∧
      (a.step S m op).2 = { a with tx := tx }) := by
  by_cases h : (a.step S m op).1 = .ok ()
  · right
    have h' : a.step S m op = (.ok (), (a.step S m op).2) := Prod.ext h rfl
    cases op with
    | share rng sh =>
      left
      obtain ⟨rng', tx, h1, h2, h3⟩ := (receiveShare_ok_iff S m a _ rng sh).1 h'
      exact ⟨rng, rng', sh, tx, rfl, h1, h2, h3⟩
    | agg rng ag =>
      right
      obtain ⟨rng', tx, h1, h2, h3⟩ := (receiveAgg_ok_iff S m a _ rng ag).1 h'
      exact ⟨rng, rng', ag, tx, rfl, h1, h2, h3⟩
  · left
    exact (C19 S m a op).1 h

/-- Without overflow, an aggregation that succeeds in some build succeeds identically with overflow checks. -/
theorem aggregate_to_checked {m : Mode} {a b c : AggShare r G1 G2} (h : a.aggregate m b = .ok c)
    (hov : ∀ i x w y w', a.contributions.get i = some (x, w) → b.contributions.get i = some (y, w') →
      w.toNat + w'.toNat < 2 ^ 64) : a.aggregate .checked b = .ok c := by
  rw [aggregate_iff] at h ⊢
  obtain ⟨h1, h2, h3, h4, h5, h6, h7⟩ := h
  refine ⟨h1, h2, h3, h4, h5, fun i hi => ?_, h7⟩
  have := h6 i hi
  cases hx : a.contributions.get i with
  | none => rw [hx] at this; simpa using this
  | some x =>
    cases hy : b.contributions.get i with
    | none => rw [hx, hy] at this; simpa using this
    | some y =>
      obtain ⟨x, w⟩ := x
      obtain ⟨y, w'⟩ := y
      rw [hx, hy, mergeVal_some_ok_iff] at this
      obtain ⟨k1, w'', k2, k3⟩ := this
      rw [mergeVal_some_ok_iff]
      exact ⟨k1, w'', by rw [addWeight_noOverflow _ (hov i x w y w' hx hy), addWeight_ok_eq k2], k3⟩

/-- What a checked aggregation does to one entry. -/
theorem get_checked {a b c : AggShare r G1 G2} (h : a.aggregate .checked b = .ok c) {i : ℕ} (hi : i < a.numParticipants)
    {x : SignedProof r G2} {w : UInt64} (hc : c.contributions.get i = some (x, w)) :
    (a.contributions.get i = some (x, w) ∧ b.contributions.get i = none) ∨
    (a.contributions.get i = none ∧ b.contributions.get i = some (x, w)) ∨
    ∃ w1 y w2, a.contributions.get i = some (x, w1) ∧ b.contributions.get i = some (y, w2) ∧
      w.toNat = w1.toNat + w2.toNat := by
  obtain ⟨p1, p2, p3, p4⟩ := C35_partial .checked a b c h i hi
  cases hx : a.contributions.get i with
  | none =>
    cases hy : b.contributions.get i with
    | none => rw [p4 hx hy] at hc; cases hc
    | some y =>
      rw [p2 y.1 y.2 hx hy] at hc
      exact Or.inr (Or.inl ⟨rfl, hc⟩)
  | some x' =>
    cases hy : b.contributions.get i with
    | none =>
      rw [p1 x'.1 x'.2 hx hy] at hc
      exact Or.inl ⟨hc, rfl⟩
    | some y =>
      have h3 := (p3 x'.1 x'.2 y.1 y.2 hx hy).2
      rw [h3] at hc
      obtain ⟨rfl, rfl⟩ := Prod.mk.inj (Option.some.inj hc)
      refine Or.inr (Or.inr ⟨x'.2, y.1, y.2, rfl, rfl, ?_⟩)
      exact toNat_add_of_lt (C34_checked a b c h i hi _ _ _ _ hx hy)

theorem get_ne_none {m : Mode} {a b c : AggShare r G1 G2} (h : a.aggregate m b = .ok c) {i : ℕ} (hi : i < a.numParticipants)
    (hab : a.contributions.get i ≠ none ∨ b.contributions.get i ≠ none) : c.contributions.get i ≠ none := by
  obtain ⟨p1, p2, p3, p4⟩ := C35_partial m a b c h i hi
  cases hx : a.contributions.get i with
  | none =>
    cases hy : b.contributions.get i with
    | none => simp [hx, hy] at hab
    | some y => rw [p2 y.1 y.2 hx hy]; simp
  | some x' =>
    cases hy : b.contributions.get i with
    | none => rw [p1 x'.1 x'.2 hx hy]; simp
    | some y => rw [(p3 x'.1 x'.2 y.1 y.2 hx hy).2]; simp

end Verif
