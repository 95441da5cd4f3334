import Verif.Lemmas.Degree
import Verif.Lemmas.Pairing
import Verif.Lemmas.BMap
import Verif.Lemmas.Hash

/-! The verification functions in closed form. -/

open Finset Polynomial

namespace Verif

set_option linter.unusedSectionVars false

section
variable {r : ℕ} [Fact r.Prime] {G : Type} [AddCommGroup G] [DecidableEq G] [Module (ZMod r) G]

theorem dualSum_eq_degreeTest (t : ℕ) (evs : List G) (rng : ℕ → ZMod r) :
    dualSum ((List.range (evs.length - t - 1)).map rng) evs = 0 ↔ Spec.DegreeTest t evs rng := by
  unfold dualSum Spec.DegreeTest
  rw [← Fin.sum_univ_eq_sum_range (fun i => (polyEval ((List.range (evs.length - t - 1)).map rng) (node r i) *
    Lagrange.nodalWeight (range evs.length) (node r) i) • evs.getD i 0)]
  have : ∀ i : Fin evs.length, (polyEval ((List.range (evs.length - t - 1)).map rng) (node r i) *
      Lagrange.nodalWeight (range evs.length) (node r) i) • evs.getD i 0 =
      ((∑ k ∈ range (evs.length - t - 1), rng k * Spec.point r i ^ k) *
      ∏ j ∈ univ.erase i, (Spec.point r i - Spec.point r j)⁻¹) • evs[i] := by
    intro i
    rw [polyEval_range, getD_lt 0 i.2]
    congr 2
    unfold Lagrange.nodalWeight
    refine Finset.prod_bij' (i := fun (j : ℕ) (hj : j ∈ (range evs.length).erase i) =>
        (⟨j, by simp at hj; omega⟩ : Fin evs.length)) (j := fun (j : Fin evs.length) _ => (j : ℕ)) ?_ ?_ ?_ ?_ ?_
    · intro j hj
      simp only [mem_erase, mem_univ, and_true, ne_eq, mem_range] at hj ⊢
      intro h; apply hj.1; rw [← h]
    · intro j hj
      simp only [mem_erase, mem_univ, and_true, ne_eq, mem_range] at hj ⊢
      exact ⟨fun h => hj (Fin.ext h), j.2⟩
    · intro j hj; rfl
    · intro j hj; rfl
    · intro j hj; rfl
  rw [sum_congr rfl fun i _ => this i]

/-- The degree check passes exactly when the dual-code equation holds for the drawn challenge. -/
theorem ensureDegree_iff (m : Mode) (rng rng' : Rng r) (evs : List G) {t : ℕ} (ht : t + 2 ≤ evs.length)
    (hn : evs.length ≤ r) (hcap : evs.length < 2 ^ 58) :
    ensureDegree m rng evs t = .ok rng' ↔ Spec.DegreeTest t evs rng ∧ rng' = rng.drop (evs.length - t - 1) := by
  rw [ensureDegree_eq m rng evs ht hn hcap, ← dualSum_eq_degreeTest]
  split
  · simp_all
  · simp_all [eq_comm]

theorem degreeTest_codeword {evs : List G} {t : ℕ} (ht : t + 2 ≤ evs.length) (hn : evs.length ≤ r)
    (h : Spec.Codeword r t evs) (rng : ℕ → ZMod r) : Spec.DegreeTest t evs rng := by
  rw [← dualSum_eq_degreeTest, dualSum_range]
  refine sum_eq_zero fun k hk => ?_
  have hk' : k < evs.length - t - 1 := by simpa using hk
  rw [dualCoeff_eq_zero hn h (by omega), smul_zero]

theorem exists_interp {evs : List G} {t : ℕ} (hr : t + 1 ≤ r) :
    ∃ A : ℕ → G, ∀ j (h : j < evs.length), j ≤ t → evs[j] = ∑ k ∈ range (t + 1), Spec.point r j ^ k • A k := by
  refine ⟨interpCoeff (range (t + 1)) (node r) (fun i => evs.getD i 0), fun j h hj => ?_⟩
  have := interp_eval (node_injOn hr) (fun i => evs.getD i 0) (N := t + 1) (by simp) (i := j)
    (by simpa [Nat.lt_succ_iff] using hj)
  simp only [getD_lt 0 h] at this
  exact this.symm

theorem recon_interp {evs : List G} {t : ℕ} (hl : t + 1 ≤ evs.length) (hr : t + 1 ≤ r) {A : ℕ → G}
    (hA : ∀ j (h : j < evs.length), j ≤ t → evs[j] = ∑ k ∈ range (t + 1), Spec.point r j ^ k • A k) :
    recon (node r) evs t = A 0 := by
  apply recon_exact (node_injOn hr)
  intro j hj
  rw [getD_lt 0 (by omega), hA j (by omega) hj]
  rfl

theorem interpolatesTo_iff {evs : List G} {t : ℕ} (hl : t + 1 ≤ evs.length) (hr : t + 1 ≤ r) (P : G) :
    Spec.InterpolatesTo r t evs P ↔ recon (node r) evs t = P := by
  constructor
  · rintro ⟨A, hA, rfl⟩; exact recon_interp hl hr hA
  · rintro rfl
    obtain ⟨A, hA⟩ := exists_interp (r := r) (evs := evs) hr
    exact ⟨A, hA, (recon_interp hl hr hA).symm⟩

/-- `lagrange_interpolation_simple` computes the value at zero. -/
theorem lagrangeSimple_iff (m : Mode) {evs : List G} {t : ℕ} (hl : t + 1 ≤ evs.length) (hr : t + 1 ≤ r)
    (h64 : t + 1 < 2 ^ 64) (P : G) :
    lagrangeSimple (r := r) m evs t = .ok P ↔ Spec.InterpolatesTo r t evs P := by
  rw [lagrangeSimple_eq m evs hl hr h64, interpolatesTo_iff hl hr]
  simp

theorem interpolatesTo_codeword {evs : List G} {t : ℕ} {A : ℕ → G}
    (hA : ∀ i (h : i < evs.length), evs[i] = ∑ k ∈ range (t + 1), Spec.point r i ^ k • A k) :
    Spec.InterpolatesTo r t evs (A 0) := ⟨A, fun j h _ => hA j h, rfl⟩

theorem dualSum_add (poly : List (ZMod r)) (u v : List G) (huv : u.length = v.length) :
    dualSum poly ((u.zip v).map fun p => p.1 + p.2) = dualSum poly u + dualSum poly v := by
  unfold dualSum
  have hl : ((u.zip v).map fun p => p.1 + p.2).length = u.length := by simp [huv]
  rw [hl, ← huv, ← sum_add_distrib]
  refine sum_congr rfl fun i hi => ?_
  have hi' : i < u.length := by simpa using hi
  rw [getD_lt 0 (by omega), getD_lt 0 hi', getD_lt 0 (by omega), ← smul_add]
  simp

theorem degreeTest_add {t : ℕ} {u v : List G} {rng : ℕ → ZMod r} (huv : u.length = v.length)
    (hu : Spec.DegreeTest t u rng) (hv : Spec.DegreeTest t v rng) :
    Spec.DegreeTest t ((u.zip v).map fun p => p.1 + p.2) rng := by
  rw [← dualSum_eq_degreeTest] at hu hv ⊢
  have hl : ((u.zip v).map fun p => p.1 + p.2).length = u.length := by simp [huv]
  rw [hl, dualSum_add _ _ _ huv, hu, zero_add]
  rw [← huv] at hv
  exact hv

theorem interpolatesTo_add {t : ℕ} {u v : List G} {P Q : G} (huv : u.length = v.length)
    (hu : Spec.InterpolatesTo r t u P) (hv : Spec.InterpolatesTo r t v Q) :
    Spec.InterpolatesTo r t ((u.zip v).map fun p => p.1 + p.2) (P + Q) := by
  obtain ⟨A, hA, rfl⟩ := hu
  obtain ⟨B, hB, rfl⟩ := hv
  refine ⟨fun k => A k + B k, fun j h hj => ?_, rfl⟩
  have h1 : j < u.length := by simp at h; omega
  simp only [List.getElem_map, List.getElem_zip, smul_add, sum_add_distrib]
  rw [hA j h1 hj, hB j (by omega) hj]

theorem codeword_add {t : ℕ} {u v : List G} (huv : u.length = v.length)
    (hu : Spec.Codeword r t u) (hv : Spec.Codeword r t v) :
    Spec.Codeword r t ((u.zip v).map fun p => p.1 + p.2) := by
  obtain ⟨A, hA⟩ := hu
  obtain ⟨B, hB⟩ := hv
  refine ⟨fun k => A k + B k, fun j h => ?_⟩
  have h1 : j < u.length := by simp at h; omega
  simp only [List.getElem_map, List.getElem_zip, smul_add, sum_add_distrib]
  rw [hA j h1, hB j (by omega)]

theorem interpolatesTo_unique {t : ℕ} {u : List G} {P Q : G} (hl : t + 1 ≤ u.length) (hr : t + 1 ≤ r)
    (h : Spec.InterpolatesTo r t u P) (h' : Spec.InterpolatesTo r t u Q) : P = Q := by
  rw [interpolatesTo_iff hl hr] at h h'
  rw [← h, h']

end

section
variable {r : ℕ} [Fact r.Prime] {G1 G2 K : Type}
  [AddCommGroup G1] [DecidableEq G1] [AddCommGroup G2] [DecidableEq G2] [CommMonoid K] [DecidableEq K]
  [Module (ZMod r) G1] [Module (ZMod r) G2]

theorem persona_length : DLK.persona.length ≤ 8 := by decide

theorem decompVerify_iff (S : Suite r G1 G2 K) (d : DecompProof r G2) (cfg : Config G1 G2) :
    d.verify S cfg = .ok () ↔
      (hashToField S.hash (ascii "DLKNIZK")
        (S.c2.codec.enc cfg.srs.g2 ++ S.c2.codec.enc d.proof.1) : Res NIZKError _) = .ok d.proof.2.1 ∧
      d.proof.2.2 • cfg.srs.g2 + d.proof.2.1 • d.gs = d.proof.1 := by
  unfold DecompProof.verify
  rw [Res.orErr_eq_ok]
  unfold DLK.verify
  rw [Res.bind_eq_ok]
  simp only [mulRepr_eq_smul, DLK.challenge, DLK.persona]
  constructor
  · rintro ⟨c, hc, h⟩
    split at h
    · cases h
    · rename_i hn
      push Not at hn
      rw [hc, hn.2]
      exact ⟨rfl, hn.2 ▸ hn.1⟩
  · rintro ⟨h1, h2⟩
    refine ⟨_, h1, ?_⟩
    rw [if_neg]
    simpa using h2

theorem sigVerify_iff (ed : EdOps) (s : Signature) (d : Digest) (pk : PublicKey) :
    s.verify ed d pk = .ok () ↔ ed.sigOk s.flatten = true ∧ ed.pkOk pk.bytes = true ∧
      ed.verifyStrict pk.bytes d.bytes.1 s.flatten = true := by
  unfold Signature.verify
  split
  · split
    · split <;> simp_all
    · simp_all
  · simp_all

/-- `SignedProof::verify` accepts exactly the valid signed proofs. -/
theorem signedVerify_iff (S : Suite r G1 G2 K) (p : SignedProof r G2) (cfg : Config G1 G2) (pk : PublicKey) :
    p.verify S cfg pk = .ok () ↔ Spec.SignedOk S cfg.srs.g2 pk p := by
  unfold SignedProof.verify
  rw [Res.bind_eq_ok]
  constructor
  · rintro ⟨⟨⟩, h1, h⟩
    rw [Res.bind_eq_ok] at h
    obtain ⟨⟨⟩, h2, -⟩ := h
    rw [Res.unwrap_eq_ok, decompVerify_iff] at h1
    rw [Res.unwrap_eq_ok, sigVerify_iff] at h2
    exact ⟨h1.1, h1.2, h2.1, h2.2.1, h2.2.2⟩
  · rintro ⟨h1, h2, h3, h4, h5⟩
    refine ⟨(), Res.unwrap_eq_ok.2 ((decompVerify_iff _ _ _).2 ⟨h1, h2⟩), ?_⟩
    rw [Res.bind_eq_ok]
    exact ⟨(), Res.unwrap_eq_ok.2 ((sigVerify_iff _ _ _ _).2 ⟨h3, h4, h5⟩), rfl⟩

theorem unwrap_cases {ε ε' α : Type} (x : Res ε α) :
    (∃ a, (x.unwrap : Res ε' α) = .ok a) ∨ (x.unwrap : Res ε' α) = .panic ∨ (x.unwrap : Res ε' α) = .diverge := by
  cases x
  · exact Or.inl ⟨_, rfl⟩
  · exact Or.inr (Or.inl rfl)
  · exact Or.inr (Or.inl rfl)
  · exact Or.inr (Or.inr rfl)

theorem signedVerify_ne_err (S : Suite r G1 G2 K) (p : SignedProof r G2) (cfg : Config G1 G2) (pk : PublicKey)
    (e : PVSSError) : p.verify S cfg pk ≠ .err e := by
  unfold SignedProof.verify
  intro h
  rw [Res.bind_eq_err] at h
  rcases h with h | ⟨⟨⟩, -, h⟩
  · exact Res.unwrap_ne_err h
  · rw [Res.bind_eq_err] at h
    rcases h with h | ⟨⟨⟩, -, h⟩
    · exact Res.unwrap_ne_err h
    · cases h

theorem dlkVerify_ne_diverge (C : Curve G2) {H : HashEnv r} (hH : HashTotal H) (g s : G2) (p : DLK.Proof r G2) :
    DLK.verify C H g s p ≠ .diverge := by
  unfold DLK.verify
  obtain ⟨c, hc⟩ := hashToField_total (ε := NIZKError) hH persona_length (C.codec.enc g ++ C.codec.enc p.1)
  unfold DLK.challenge
  rw [hc, Res.bind_ok']
  simp only
  split <;> simp

theorem signedVerify_ne_diverge (S : Suite r G1 G2 K) (hH : HashTotal S.hash) (p : SignedProof r G2)
    (cfg : Config G1 G2) (pk : PublicKey) : p.verify S cfg pk ≠ .diverge := by
  unfold SignedProof.verify DecompProof.verify
  have h1 := dlkVerify_ne_diverge S.c2 hH cfg.srs.g2 p.decompProof.gs p.decompProof.proof
  cases h : DLK.verify S.c2 S.hash cfg.srs.g2 p.decompProof.gs p.decompProof.proof with
  | ok a =>
    have : p.signature.verify S.ed (p.decompProof.digest S) pk = .ok () ∨
        ∃ e, p.signature.verify S.ed (p.decompProof.digest S) pk = .err e := by
      unfold Signature.verify
      split
      · split
        · split
          · exact Or.inl rfl
          · exact Or.inr ⟨_, rfl⟩
        · exact Or.inr ⟨_, rfl⟩
      · exact Or.inr ⟨_, rfl⟩
    rcases this with h2 | ⟨e, h2⟩ <;> simp [h2]
  | err e => simp
  | panic => simp
  | diverge => exact absurd h h1

/-! ### single shares -/

theorem coreVerify_iff (m : Mode) (a : Aggregator r G1 G2) (rng rng' : Rng r) (d : DecompProof r G2)
    (core : PVSSCore G1 G2) :
    a.coreVerify m rng d core = .ok rng' ↔
      core.encs.length = a.config.numParticipants ∧ core.comms.length = a.config.numParticipants ∧
      ensureDegree m rng core.comms a.config.degree = .ok rng' ∧
      lagrangeSimple (r := r) m core.comms a.config.degree = .ok d.gs := by
  unfold Aggregator.coreVerify
  split
  · rename_i h
    constructor
    · intro h'; cases h'
    · rintro ⟨h1, h2, -⟩
      rcases h with h | h
      · exact absurd h1 h
      · exact absurd h2 h
  · rename_i h
    push Not at h
    rw [Res.bind_eq_ok]
    constructor
    · rintro ⟨rng1, h1, h2⟩
      rw [Res.orErr_eq_ok] at h1
      rw [Res.bind_eq_ok] at h2
      obtain ⟨pt, h3, h4⟩ := h2
      rw [Res.unwrap_eq_ok] at h3
      split at h4
      · cases h4
      · rename_i hpt
        cases h4
        exact ⟨h.1, h.2, h1, by rw [h3, not_not.1 hpt]⟩
    · rintro ⟨-, -, h1, h2⟩
      refine ⟨rng', Res.orErr_eq_ok.2 h1, ?_⟩
      rw [Res.bind_eq_ok]
      refine ⟨d.gs, Res.unwrap_eq_ok.2 h2, ?_⟩
      rw [if_neg (by simp)]

theorem pairCheck_iff {S : Suite r G1 G2 K} (hS : PairLaws S) (pk : G1) (c : G2) (e : G1) (g2 : G2) :
    prodPairings S [(pk, c), (-e, g2)] = 1 ↔ S.pair pk c = S.pair e g2 := by
  simp only [prodPairings, List.map_cons, List.map_nil, List.prod_cons, List.prod_nil, mul_one]
  exact hS.mul_neg_eq_one_iff

theorem shareVerify_iff (S : Suite r G1 G2 K) (hS : PairLaws S) (m : Mode) (a : Aggregator r G1 G2) (rng rng' : Rng r)
    (sh : PVSSShare r G1 G2) :
    a.shareVerify S m rng sh = .ok rng' ↔
      ∃ q, a.participants.get sh.participantId = some q ∧
        sh.participantId < a.config.numParticipants ∧
        sh.core.encs.length = a.config.numParticipants ∧ sh.core.comms.length = a.config.numParticipants ∧
        ensureDegree m rng sh.core.comms a.config.degree = .ok rng' ∧
        lagrangeSimple (r := r) m sh.core.comms a.config.degree = .ok sh.signedProof.decompProof.gs ∧
        Spec.EncOk S a.config.srs.g2 q.pkSig sh.core sh.participantId ∧
        Spec.SignedOk S a.config.srs.g2 q.pkEd sh.signedProof := by
  unfold Aggregator.shareVerify
  simp only
  rw [Res.bind_eq_ok]
  constructor
  · rintro ⟨q, h1, h2⟩
    rw [Res.ofOption_eq_ok] at h1
    rw [Res.bind_eq_ok] at h2
    obtain ⟨c, h3, h4⟩ := h2
    rw [Res.bind_eq_ok] at h4
    obtain ⟨e, h5, h6⟩ := h4
    rw [idx_eq_ok] at h3 h5
    split at h6
    · cases h6
    rename_i hp
    rw [not_not, pairCheck_iff hS] at hp
    rw [Res.bind_eq_ok] at h6
    obtain ⟨rng1, h7, h8⟩ := h6
    rw [Res.bind_eq_ok] at h8
    obtain ⟨⟨⟩, h9, h10⟩ := h8
    cases h10
    rw [Res.orErr_eq_ok, signedVerify_iff] at h9
    rw [coreVerify_iff] at h7
    refine ⟨q, h1, ?_, h7.1, h7.2.1, h7.2.2.1, h7.2.2.2, ⟨e, c, h5, h3, hp⟩, h9⟩
    have := (List.getElem?_eq_some_iff.1 h3).1
    rw [h7.2.1] at this
    exact this
  · rintro ⟨q, h1, -, h2, h3, h4, h5, ⟨e, c, h6, h7, h8⟩, h9⟩
    refine ⟨q, Res.ofOption_eq_ok.2 h1, ?_⟩
    rw [idx_eq_ok.2 h7, Res.bind_ok', idx_eq_ok.2 h6, Res.bind_ok', if_neg (not_not.2 ((pairCheck_iff hS _ _ _ _).2 h8)),
      (coreVerify_iff m a rng rng' _ _).2 ⟨h2, h3, h4, h5⟩, Res.bind_ok', (signedVerify_iff _ _ _ _).2 h9]
    rfl

/-! ### aggregated shares -/

theorem pairLoop_eq (a : Aggregator r G1 G2) (core : PVSSCore G1 G2) (ρ : ZMod r) {n : ℕ} (pk : ℕ → G1)
    (hk : Spec.KeyTable a.participants n pk) (he : core.encs.length = n) (hc : core.comms.length = n) :
    loop (a.pairStep core (List.replicate n ρ)) (0, []) (List.range n) =
      .ok (ρ • core.encs.sum, core.comms.zipIdx.map fun ci => (ρ • pk ci.2, ci.1)) := by
  have key : ∀ k ≤ n, loop (a.pairStep core (List.replicate n ρ)) (0, []) (List.range k) =
      .ok (ρ • (core.encs.take k).sum, (core.comms.take k).zipIdx.map fun ci => (ρ • pk ci.2, ci.1)) := by
    intro k hkn
    induction k with
    | zero => simp [loop]
    | succ k ih =>
      rw [List.range_succ, loop_append, ih (by omega), Res.bind_ok', loop_cons]
      obtain ⟨q, hq, hpk⟩ := hk k (by omega)
      unfold Aggregator.pairStep
      rw [idx_ok (by omega), Res.bind_ok', idx_ok (by simp; omega), Res.bind_ok', hq, Res.unwrapOpt_some, Res.bind_ok',
        idx_ok (by omega), Res.bind_ok', Res.bind_ok', loop_nil]
      rw [List.take_succ_eq_append_getElem (by omega), List.sum_append, smul_add,
        List.take_succ_eq_append_getElem (by omega), List.zipIdx_append]
      simp [mulRepr_eq_smul, hpk, hc, Nat.min_eq_left (by omega : k ≤ n)]
  have := key n (le_refl n)
  rwa [List.take_of_length_le (by omega), List.take_of_length_le (by omega)] at this

theorem pairLoop_ok_keys {a : Aggregator r G1 G2} {core : PVSSCore G1 G2} {rs : List (ZMod r)} {n : ℕ}
    {x : G1 × List (G1 × G2)} (h : loop (a.pairStep core rs) (0, []) (List.range n) = .ok x) :
    ∀ i < n, ∃ q, a.participants.get i = some q := by
  intro i hi
  obtain ⟨s1, s2, h1⟩ := loop_ok_forall h i (by simpa using hi)
  unfold Aggregator.pairStep at h1
  simp only [Res.bind_eq_ok] at h1
  obtain ⟨_, _, _, _, q, hq, _⟩ := h1
  exact ⟨q, Res.unwrapOpt_eq_ok.1 hq⟩

theorem batch_iff {S : Suite r G1 G2 K} (hS : PairLaws S) (pk : ℕ → G1) (core : PVSSCore G1 G2) (ρ : ZMod r) (g2 : G2) :
    prodPairings S ((core.comms.zipIdx.map fun ci => (ρ • pk ci.2, ci.1)) ++ [(-(ρ • core.encs.sum), g2)]) = 1 ↔
      Spec.BatchEq S g2 pk core ρ := by
  unfold prodPairings Spec.BatchEq
  simp only [List.map_append, List.map_map, Function.comp_def, List.prod_append, List.map_cons, List.map_nil,
    List.prod_cons, List.prod_nil, mul_one]
  exact hS.mul_neg_eq_one_iff

theorem contribLoop_iff (S : Suite r G1 G2 K) (a : Aggregator r G1 G2) (l : List (ℕ × (SignedProof r G2 × UInt64)))
    (tot res : G2) :
    loop (a.contribStep S) tot l = .ok res ↔
      (∀ e ∈ l, ∃ q, a.participants.get e.1 = some q ∧ Spec.SignedOk S a.config.srs.g2 q.pkEd e.2.1) ∧
      res = tot + (l.map fun e => ((e.2.2.toNat : ℕ) : ZMod r) • e.2.1.decompProof.gs).sum := by
  induction l generalizing tot with
  | nil => simp [loop, eq_comm]
  | cons e l ih =>
    rw [loop_cons, Res.bind_eq_ok]
    constructor
    · rintro ⟨s, h1, h2⟩
      unfold Aggregator.contribStep at h1
      rw [Res.bind_eq_ok] at h1
      obtain ⟨q, hq, h1⟩ := h1
      rw [Res.bind_eq_ok] at h1
      obtain ⟨⟨⟩, hv, h1⟩ := h1
      cases h1
      rw [Res.orErr_eq_ok, signedVerify_iff] at hv
      obtain ⟨h3, h4⟩ := (ih _).1 h2
      refine ⟨?_, ?_⟩
      · intro e' he'
        rcases List.mem_cons.1 he' with rfl | he'
        · exact ⟨q, Res.unwrapOpt_eq_ok.1 hq, hv⟩
        · exact h3 e' he'
      · rw [h4, List.map_cons, List.sum_cons, mulRepr_eq_smul, add_assoc]
    · rintro ⟨h1, h2⟩
      obtain ⟨q, hq, hv⟩ := h1 e (by simp)
      refine ⟨tot + ((e.2.2.toNat : ℕ) : ZMod r) • e.2.1.decompProof.gs, ?_, ?_⟩
      · unfold Aggregator.contribStep
        rw [hq, Res.unwrapOpt_some, Res.bind_ok', (signedVerify_iff S e.2.1 a.config q.pkEd).2 hv, mulRepr_eq_smul]
        rfl
      · refine (ih _).2 ⟨fun e' he' => h1 e' (by simp [he']), ?_⟩
        rw [h2, List.map_cons, List.sum_cons, add_assoc]

theorem batchEq_congr {S : Suite r G1 G2 K} {g2 : G2} {pk pk' : ℕ → G1} {core : PVSSCore G1 G2} {ρ : ZMod r}
    (h : ∀ i < core.comms.length, pk i = pk' i) : Spec.BatchEq S g2 pk core ρ ↔ Spec.BatchEq S g2 pk' core ρ := by
  unfold Spec.BatchEq
  have : (core.comms.zipIdx.map fun ci => S.pair (ρ • pk ci.2) ci.1) =
      (core.comms.zipIdx.map fun ci => S.pair (ρ • pk' ci.2) ci.1) := by
    refine List.map_congr_left fun ci hci => ?_
    have := List.snd_lt_of_mem_zipIdx hci
    rw [h ci.2 (by omega)]
  rw [this]

theorem keyTable_of_get' {ps : BMap (Participant G1)} {n : ℕ} (h : ∀ i < n, ∃ q, ps.get i = some q) :
    ∃ pk, Spec.KeyTable ps n pk := by
  refine ⟨fun i => match ps.get i with | some q => q.pkSig | none => 0, fun i hi => ?_⟩
  obtain ⟨q, hq⟩ := h i hi
  exact ⟨q, hq, by simp [hq]⟩

/-- `aggregation_verify` accepts exactly when all its checks pass. -/
theorem aggregationVerify_iff (S : Suite r G1 G2 K) (hS : PairLaws S) (m : Mode) (a : Aggregator r G1 G2)
    (rng rng' : Rng r) (ag : AggShare r G1 G2) :
    a.aggregationVerify S m rng ag = .ok rng' ↔
      ag.core.encs.length = a.config.numParticipants ∧ ag.core.comms.length = a.config.numParticipants ∧
      ∃ rng1, ensureDegree m rng ag.core.comms a.config.degree = .ok rng1 ∧
        (∃ pk, Spec.KeyTable a.participants a.config.numParticipants pk ∧
          Spec.BatchEq S a.config.srs.g2 pk ag.core (rng1 0)) ∧
        (∀ i x w, ag.contributions.get i = some (x, w) →
          ∃ q, a.participants.get i = some q ∧ Spec.SignedOk S a.config.srs.g2 q.pkEd x) ∧
        lagrangeSimple (r := r) m ag.core.comms a.config.degree = .ok (Spec.weightedGs ag.contributions) ∧
        rng' = rng1.drop 1 := by
  unfold Aggregator.aggregationVerify
  simp only
  split
  · rename_i h
    constructor
    · intro h'; cases h'
    · rintro ⟨h1, h2, -⟩
      rcases h with h | h
      · exact absurd h1 h
      · exact absurd h2 h
  · rename_i h
    push Not at h
    rw [Res.bind_eq_ok]
    constructor
    · rintro ⟨rng1, h1, h2⟩
      rw [Res.orErr_eq_ok] at h1
      rw [Res.bind_eq_ok] at h2
      obtain ⟨x, hx, h2⟩ := h2
      obtain ⟨pk, hk⟩ := keyTable_of_get' (pairLoop_ok_keys hx)
      rw [pairLoop_eq a ag.core _ pk hk h.1 h.2] at hx
      cases hx
      split at h2
      · cases h2
      rename_i hb
      rw [not_not, batch_iff hS] at hb
      rw [Res.bind_eq_ok] at h2
      obtain ⟨pt, h3, h4⟩ := h2
      rw [Res.unwrap_eq_ok] at h3
      rw [Res.bind_eq_ok] at h4
      obtain ⟨gt, h5, h6⟩ := h4
      rw [contribLoop_iff] at h5
      split at h6
      · cases h6
      rename_i hgt
      cases h6
      refine ⟨h.1, h.2, rng1, h1, ⟨pk, hk, hb⟩, fun i x w hi => h5.1 (i, (x, w)) ((BMap.mem_entries _).2 hi), ?_, rfl⟩
      rw [h3, ← not_not.1 hgt, h5.2, zero_add]
      rfl
    · rintro ⟨-, -, rng1, h1, ⟨pk, hk, hb⟩, h2, h3, rfl⟩
      refine ⟨rng1, Res.orErr_eq_ok.2 h1, ?_⟩
      rw [pairLoop_eq a ag.core _ pk hk h.1 h.2, Res.bind_ok']
      simp only
      rw [if_neg (not_not.2 ((batch_iff hS _ _ _ _).2 hb)), h3, Res.unwrap_ok, Res.bind_ok',
        (contribLoop_iff S a _ 0 (Spec.weightedGs ag.contributions)).2
          ⟨fun e he => h2 e.1 e.2.1 e.2.2 ((BMap.mem_entries _).1 he), by rw [zero_add]; rfl⟩, Res.bind_ok', if_neg (by simp)]

end
end Verif
