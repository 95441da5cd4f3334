import Verif.Lemmas.Degree

/-! The dealing algorithm in closed form. -/

open Finset Polynomial

namespace Verif

set_option linter.unusedSectionVars false

variable {r : ℕ} [Fact r.Prime] {G1 G2 : Type}
  [AddCommGroup G1] [DecidableEq G1] [AddCommGroup G2] [DecidableEq G2]
  [Module (ZMod r) G1] [Module (ZMod r) G2]

theorem polyRand_eq_ok {ε : Type} {m : Mode} {rng rng' : Rng r} {d : ℕ} {poly : List (ZMod r)}
    (h : (polyRand m rng d : Res ε _) = .ok (poly, rng')) :
    ∃ cnt ≤ d + 1, poly = trim ((List.range cnt).map rng) ∧ rng' = rng.drop cnt := by
  unfold polyRand at h
  rw [Res.bind_eq_ok] at h
  obtain ⟨cnt, hc, h⟩ := h
  split at h
  · cases h
  obtain ⟨h1, h2⟩ := Prod.mk.inj (Res.ok.inj h)
  refine ⟨cnt, ?_, h1.symm, h2.symm⟩
  unfold polyCount addU64 at hc
  cases m <;> simp only at hc
  · split at hc
    · cases hc; exact le_refl _
    · cases hc
  · split at hc
    · cases hc; exact le_refl _
    · cases hc; exact Nat.mod_le _ _
  · cases hc; exact le_refl _

/-- Polynomial with the first `N` values of a stream as coefficients. -/
noncomputable def rngPoly (rng : ℕ → ZMod r) (N : ℕ) : (ZMod r)[X] := ∑ k ∈ range N, C (rng k) * X ^ k

theorem rngPoly_natDegree (rng : ℕ → ZMod r) (N : ℕ) : (rngPoly rng (N + 1)).natDegree ≤ N := by
  unfold rngPoly
  refine natDegree_sum_le_of_forall_le _ _ fun k hk => ?_
  have : k ≤ N := by simpa [Nat.lt_succ_iff] using hk
  exact (natDegree_C_mul_X_pow_le _ _).trans this

theorem rngPoly_natDegree' (rng : ℕ → ZMod r) {N t : ℕ} (h : N ≤ t + 1) : (rngPoly rng N).natDegree ≤ t := by
  unfold rngPoly
  refine natDegree_sum_le_of_forall_le _ _ fun k hk => ?_
  have : k < N := by simpa using hk
  exact (natDegree_C_mul_X_pow_le _ _).trans (by omega)

theorem rngPoly_eval (rng : ℕ → ZMod r) (N : ℕ) (x : ZMod r) :
    (rngPoly rng N).eval x = polyEval (trim ((List.range N).map rng)) x := by
  rw [polyEval_trim, polyEval_range, rngPoly, eval_finsetSum]
  simp

theorem rngPoly_coeff (rng : ℕ → ZMod r) (N k : ℕ) : (rngPoly rng N).coeff k = if k < N then rng k else 0 := by
  unfold rngPoly
  simp only [finsetSum_coeff, coeff_C_mul_X_pow]
  simp [Finset.sum_ite_eq]

theorem rangeToPred_ok (m : Mode) {n : ℕ} (h : 1 ≤ n) : rangeToPred m n = .ok (List.range n) := by
  unfold rangeToPred subU64
  rw [if_pos h, Res.bind_ok']
  congr 2
  omega

/-- The values handed out. -/
def evalsOf (poly : List (ZMod r)) (n : ℕ) : List (ZMod r) := (range1 n).map fun (j : ℕ) => polyEval poly (j : ZMod r)

theorem length_evalsOf (poly : List (ZMod r)) (n : ℕ) : (evalsOf poly n).length = n := by
  simp [evalsOf, length_range1]

theorem idx_evalsOf {ε : Type} (poly : List (ZMod r)) {n j : ℕ} (h : j < n) :
    (idx (evalsOf poly n) j : Res ε _) = .ok (polyEval poly (Spec.point r j)) := by
  rw [idx_ok (by simpa [length_evalsOf] using h)]
  simp [evalsOf, range1, Spec.point]

/-- `share_pvss` after the polynomial has been drawn. -/
def shareRest (m : Mode) (nd : Node r G1 G2) (poly : List (ZMod r)) (rng : Rng r) :
    Res PVSSError ((PVSSCore G1 G2 × PVSSShareSecrets r G1) × Rng r) := do
  let n := nd.aggregator.config.numParticipants
  let js ← rangeToPred m n
  let comms ← collect (fun j => do
      let e ← idx (evalsOf poly n) j
      .ok (mulRepr nd.aggregator.config.srs.g2 e)) js
  let encs ← collect (fun j => do
      let p ← Res.ofOption (nd.aggregator.participants.get j) (PVSSError.InvalidParticipantId j)
      let e ← idx (evalsOf poly n) j
      .ok (mulRepr p.pkSig e)) js
  let eMine ← idx (evalsOf poly n) nd.dealer.participant.id
  let mySecret := mulRepr nd.aggregator.config.srs.g1 eMine
  let p0 ← idx poly 0
  .ok ((⟨encs, comms⟩, ⟨p0, mySecret⟩), rng)

theorem sharePvss_eq (m : Mode) (nd : Node r G1 G2) (rng : Rng r) :
    nd.sharePvss m rng = (polyRand m rng nd.aggregator.config.degree >>= fun x => shareRest m nd x.1 x.2) := rfl

theorem shareRest_zero (m : Mode) (nd : Node r G1 G2) (poly : List (ZMod r)) (rng : Rng r)
    (h : nd.aggregator.config.numParticipants = 0) : shareRest m nd poly rng = .panic := by
  unfold shareRest
  simp only [h]
  have : rangeToPred m 0 = .panic ∨ ∃ k, rangeToPred m 0 = .ok (List.range (k + 1)) := by
    unfold rangeToPred
    rcases subU64_total (ε := PVSSError) m 0 1 with h1 | ⟨k, h1⟩ <;> rw [h1]
    · exact Or.inl rfl
    · exact Or.inr ⟨k, rfl⟩
  rcases this with h1 | ⟨k, h1⟩ <;> rw [h1]
  · rfl
  rw [Res.bind_ok', List.range_succ_eq_map, collect_cons, idx_panic (by simp [length_evalsOf])]
  rfl

theorem comms_ok (nd : Node r G1 G2) (poly : List (ZMod r)) (n : ℕ) :
    collect (ε := PVSSError) (fun j => do
      let e ← idx (evalsOf poly n) j
      .ok (mulRepr nd.aggregator.config.srs.g2 e)) (List.range n) =
    .ok ((List.range n).map fun j => polyEval poly (Spec.point r j) • nd.aggregator.config.srs.g2) := by
  refine collect_eq_map fun j hj => ?_
  rw [idx_evalsOf poly (by simpa using hj), Res.bind_ok', mulRepr_eq_smul]

theorem shareRest_missing (m : Mode) (nd : Node r G1 G2) (poly : List (ZMod r)) (rng : Rng r) {k : ℕ}
    (hk : k < nd.aggregator.config.numParticipants) (hmiss : nd.aggregator.participants.get k = none)
    (hbelow : ∀ i < k, ∃ q, nd.aggregator.participants.get i = some q) :
    shareRest m nd poly rng = .err (.InvalidParticipantId k) := by
  unfold shareRest
  simp only
  rw [rangeToPred_ok m (by omega), Res.bind_ok', comms_ok nd, Res.bind_ok']
  have hsplit : List.range nd.aggregator.config.numParticipants =
      List.range k ++ k :: (List.range' (k + 1) (nd.aggregator.config.numParticipants - k - 1)) := by
    rw [List.range_eq_range', List.range_eq_range', ← List.range'_succ, Nat.sub_add_cancel (by omega)]
    have := List.range'_append (s := 0) (m := k) (n := nd.aggregator.config.numParticipants - k) (step := 1)
    rw [Nat.zero_add, Nat.one_mul] at this
    rw [this]
    congr 1; omega
  rw [hsplit, collect_append_err (e := .InvalidParticipantId k)]
  · rfl
  · intro i hi
    have hi' : i < k := by simpa using hi
    obtain ⟨q, hq⟩ := hbelow i hi'
    rw [hq, Res.ofOption_some, Res.bind_ok', idx_evalsOf poly (by omega)]
    exact ⟨_, rfl⟩
  · rw [hmiss]; rfl

theorem encs_ok (nd : Node r G1 G2) (poly : List (ZMod r)) (n : ℕ) (pk : ℕ → G1)
    (hk : Spec.KeyTable nd.aggregator.participants n pk) :
    collect (fun j => do
      let p ← Res.ofOption (nd.aggregator.participants.get j) (PVSSError.InvalidParticipantId j)
      let e ← idx (evalsOf poly n) j
      .ok (mulRepr p.pkSig e)) (List.range n) =
    .ok ((List.range n).map fun j => polyEval poly (Spec.point r j) • pk j) := by
  refine collect_eq_map fun j hj => ?_
  have hj' : j < n := by simpa using hj
  obtain ⟨q, hq, hpk⟩ := hk j hj'
  rw [hq, Res.ofOption_some, Res.bind_ok', idx_evalsOf poly hj', Res.bind_ok', mulRepr_eq_smul, hpk]

theorem keyTable_of_get {ps : BMap (Participant G1)} {n : ℕ} (h : ∀ i < n, ∃ q, ps.get i = some q) :
    Spec.KeyTable ps n (fun i => match ps.get i with | some q => q.pkSig | none => 0) := by
  intro i hi
  obtain ⟨q, hq⟩ := h i hi
  exact ⟨q, hq, by simp [hq]⟩

/-- The core produced from polynomial coefficients `poly`. -/
def dealCore (nd : Node r G1 G2) (pk : ℕ → G1) (poly : List (ZMod r)) : PVSSCore G1 G2 :=
  ⟨(List.range nd.aggregator.config.numParticipants).map fun j => polyEval poly (Spec.point r j) • pk j,
   (List.range nd.aggregator.config.numParticipants).map fun j =>
      polyEval poly (Spec.point r j) • nd.aggregator.config.srs.g2⟩

theorem shareRest_full (m : Mode) (nd : Node r G1 G2) (poly : List (ZMod r)) (rng : Rng r) (pk : ℕ → G1)
    (hn : 1 ≤ nd.aggregator.config.numParticipants)
    (hk : Spec.KeyTable nd.aggregator.participants nd.aggregator.config.numParticipants pk) :
    shareRest m nd poly rng =
      (idx (evalsOf poly nd.aggregator.config.numParticipants) nd.dealer.participant.id >>= fun e =>
        idx poly 0 >>= fun p0 =>
        .ok ((dealCore nd pk poly, ⟨p0, mulRepr nd.aggregator.config.srs.g1 e⟩), rng)) := by
  unfold shareRest
  simp only
  rw [rangeToPred_ok m (by omega), Res.bind_ok', comms_ok nd, Res.bind_ok', encs_ok nd _ _ pk hk, Res.bind_ok']
  rfl

theorem shareRest_ok (m : Mode) (nd : Node r G1 G2) (poly : List (ZMod r)) (rng : Rng r) (pk : ℕ → G1)
    (hn : nd.dealer.participant.id < nd.aggregator.config.numParticipants)
    (hk : Spec.KeyTable nd.aggregator.participants nd.aggregator.config.numParticipants pk) (hp : poly ≠ []) :
    shareRest m nd poly rng =
      .ok ((dealCore nd pk poly, ⟨polyEval poly 0,
        polyEval poly (Spec.point r nd.dealer.participant.id) • nd.aggregator.config.srs.g1⟩), rng) := by
  rw [shareRest_full m nd poly rng pk (by omega) hk, idx_evalsOf poly hn, Res.bind_ok', mulRepr_eq_smul]
  cases poly with
  | nil => exact absurd rfl hp
  | cons a l =>
    rw [idx_ok (by simp), Res.bind_ok']
    simp [polyEval_cons]

theorem shareRest_ok_iff (m : Mode) (nd : Node r G1 G2) (poly : List (ZMod r)) (rng : Rng r) :
    (∃ x, shareRest m nd poly rng = .ok x) ↔ nd.dealer.participant.id < nd.aggregator.config.numParticipants ∧
      (∀ i < nd.aggregator.config.numParticipants, ∃ q, nd.aggregator.participants.get i = some q) ∧ poly ≠ [] := by
  constructor
  · rintro ⟨x, hx⟩
    by_cases h0 : nd.aggregator.config.numParticipants = 0
    · rw [shareRest_zero m nd poly rng h0] at hx; cases hx
    by_cases hk : ∀ i < nd.aggregator.config.numParticipants, ∃ q, nd.aggregator.participants.get i = some q
    · rw [shareRest_full m nd poly rng _ (by omega) (keyTable_of_get hk), Res.bind_eq_ok] at hx
      obtain ⟨e, he, hx⟩ := hx
      rw [Res.bind_eq_ok] at hx
      obtain ⟨p0, hp, -⟩ := hx
      rw [idx_eq_ok] at he hp
      refine ⟨?_, hk, ?_⟩
      · have := (List.getElem?_eq_some_iff.1 he).1
        rwa [length_evalsOf] at this
      · rintro rfl; simp at hp
    · exfalso
      classical
      push Not at hk
      have hex : ∃ k, k < nd.aggregator.config.numParticipants ∧ nd.aggregator.participants.get k = none := by
        obtain ⟨k, h1, h2⟩ := hk
        refine ⟨k, h1, ?_⟩
        cases h : nd.aggregator.participants.get k with
        | none => rfl
        | some q => exact absurd h (h2 q)
      have hs := Nat.find_spec hex
      rw [shareRest_missing m nd poly rng hs.1 hs.2 (fun i hi => by
        have := Nat.find_min hex hi
        cases h : nd.aggregator.participants.get i with
        | none => exact absurd ⟨by omega, h⟩ this
        | some q => exact ⟨q, rfl⟩)] at hx
      cases hx
  · rintro ⟨h1, h2, h3⟩
    exact ⟨_, shareRest_ok m nd poly rng _ h1 (keyTable_of_get h2) h3⟩

end Verif
