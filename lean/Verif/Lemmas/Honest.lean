import Verif.Lemmas.Verify
import Verif.Lemmas.Aggregate
import Verif.Props.Deal
import Verif.Props.Nizk
import Verif.Props.EdDSA
import Verif.Props.Degree

/-! Honest shares: what `Node::share` produces, and that it is accepted. -/

open Finset Polynomial

namespace Verif

set_option linter.unusedSectionVars false

variable {r : ℕ} [Fact r.Prime] {G1 G2 K : Type}
  [AddCommGroup G1] [DecidableEq G1] [AddCommGroup G2] [DecidableEq G2] [CommMonoid K] [DecidableEq K]
  [Module (ZMod r) G1] [Module (ZMod r) G2]

theorem sharePvss_id_lt {m : Mode} {nd : Node r G1 G2} {rng : Rng r} {x} (h : nd.sharePvss m rng = .ok x) :
    nd.dealer.participant.id < nd.aggregator.config.numParticipants ∧
    ∀ i < nd.aggregator.config.numParticipants, ∃ q, nd.aggregator.participants.get i = some q := by
  rw [sharePvss_eq, Res.bind_eq_ok] at h
  obtain ⟨y, -, h⟩ := h
  obtain ⟨h1, h2, -⟩ := (shareRest_ok_iff m nd _ _).1 ⟨_, h⟩
  exact ⟨h1, h2⟩

theorem keyTable_unique {ps : BMap (Participant G1)} {n : ℕ} {pk pk' : ℕ → G1} (h : Spec.KeyTable ps n pk)
    (h' : Spec.KeyTable ps n pk') : ∀ i < n, pk i = pk' i := by
  intro i hi
  obtain ⟨q, hq, hp⟩ := h i hi
  obtain ⟨q', hq', hp'⟩ := h' i hi
  rw [hq] at hq'
  cases hq'
  rw [← hp, hp']

/-- What `share` returns. -/
theorem share_good (S : Suite r G1 G2 K) (hE : EdLaws S.ed) (m : Mode) (nd : Node r G1 G2)
    (hd : Spec.GoodDealer S.ed nd) (rng rng' : Rng r) (sh : PVSSShare r G1 G2) (h : nd.share S m rng = .ok (sh, rng')) :
    sh.participantId = nd.dealer.participant.id ∧
    ∃ p, Spec.GoodShare S nd.aggregator.config nd.aggregator.participants sh p := by
  unfold Node.share at h
  rw [Res.bind_eq_ok] at h
  obtain ⟨⟨⟨core, sec⟩, rng1⟩, h1, h⟩ := h
  simp only [Res.bind_eq_ok] at h
  obtain ⟨⟨d, rng2⟩, h2, sig, h3, h⟩ := h
  obtain ⟨rfl, -⟩ := Prod.mk.inj (Res.ok.inj h)
  rw [Res.unwrap_eq_ok] at h2
  obtain ⟨hgs, hver⟩ := C43 S rng1 rng2 nd.aggregator.config sec.p0 d h2
  obtain ⟨seed, q, hsk, hq, hpk⟩ := hd
  obtain ⟨sig', hs1, hs2, -⟩ := C58_sign (ε := PVSSError) S.ed hE seed (d.digest S)
  rw [hsk] at h3
  unfold generateKeypair at hs1 hs2
  rw [h3] at hs1
  cases hs1
  obtain ⟨p, hp, h0, -⟩ := C01 m nd rng rng1 core sec
    (fun i => match nd.aggregator.participants.get i with | some q => q.pkSig | none => 0)
    (fun i q hq => by simp [hq]) h1
  obtain ⟨hlt, hall⟩ := sharePvss_id_lt h1
  refine ⟨rfl, p, hlt, ⟨_, fun i hi => ?_, hp⟩, ?_, q, hq, ?_⟩
  · obtain ⟨q', hq'⟩ := hall i hi
    exact ⟨q', hq', by simp [hq']⟩
  · simp only; rw [hgs, h0]
  · obtain ⟨e1, e2⟩ := (decompVerify_iff S d nd.aggregator.config).1 hver
    obtain ⟨e3, e4, e5⟩ := (sigVerify_iff _ _ _ _).1 hs2
    rw [hpk]
    exact ⟨e1, e2, e3, e4, e5⟩

theorem share_total (S : Suite r G1 G2 K) (hH : HashTotal S.hash) (hE : EdLaws S.ed) (m : Mode) (nd : Node r G1 G2)
    (hd : Spec.GoodDealer S.ed nd) (rng : Rng r) {x} (h : nd.sharePvss m rng = .ok x) :
    ∃ sh rng', nd.share S m rng = .ok (sh, rng') ∧ sh.core = x.1.1 := by
  obtain ⟨⟨core, sec⟩, rng1⟩ := x
  obtain ⟨d, hdec⟩ := C43_total S hH rng1 nd.aggregator.config sec.p0
  obtain ⟨seed, q, hsk, hq, hpk⟩ := hd
  obtain ⟨sig, hs1, -, -⟩ := C58_sign (ε := PVSSError) S.ed hE seed (d.digest S)
  refine ⟨⟨nd.dealer.participant.id, core, ⟨d, sig⟩⟩, rng1.drop 1, ?_, ?_⟩
  · unfold Node.share
    rw [h, Res.bind_ok']
    simp only
    rw [hdec, Res.unwrap_ok, Res.bind_ok', hsk]
    simp only
    rw [generateKeypair] at hs1
    rw [hs1, Res.bind_ok']
  · rfl

theorem codeword_of_shares {g2 : G2} {n t : ℕ} {pk : ℕ → G1} {core : PVSSCore G1 G2} {p : (ZMod r)[X]}
    (h : Spec.Shares g2 n t pk core p) : Spec.Codeword r t core.comms := codeword_of_poly h.degree h.comm

theorem interpolatesTo_of_shares {g2 : G2} {n t : ℕ} {pk : ℕ → G1} {core : PVSSCore G1 G2} {p : (ZMod r)[X]}
    (h : Spec.Shares g2 n t pk core p) : Spec.InterpolatesTo r t core.comms (p.eval 0 • g2) := by
  refine ⟨fun k => p.coeff k • g2, fun j hj _ => ?_, by simp only [coeff_zero_eq_eval_zero]⟩
  rw [h.comm j hj, eval_eq_sum_range' (Nat.lt_succ_of_le h.degree), sum_smul]
  exact sum_congr rfl fun k _ => by rw [smul_smul, mul_comm]

theorem encOk_of_shares (S : Suite r G1 G2 K) (hS : PairLaws S) {g2 : G2} {n t : ℕ} {pk : ℕ → G1}
    {core : PVSSCore G1 G2} {p : (ZMod r)[X]} (h : Spec.Shares g2 n t pk core p) {i : ℕ} (hi : i < n) :
    Spec.EncOk S g2 (pk i) core i := by
  have h1 : i < core.encs.length := by rw [h.encs_length]; exact hi
  have h2 : i < core.comms.length := by rw [h.comms_length]; exact hi
  refine ⟨_, _, List.getElem?_eq_getElem h1, List.getElem?_eq_getElem h2, ?_⟩
  rw [h.comm i h2, h.enc i h1, hS.smul_comm]

/-- Good shares are accepted. -/
theorem shareVerify_good (S : Suite r G1 G2 K) (hS : PairLaws S) (m : Mode) (a : Aggregator r G1 G2) (rng : Rng r)
    (sh : PVSSShare r G1 G2) (p : (ZMod r)[X]) (hg : Spec.GoodShare S a.config a.participants sh p)
    (hn : a.config.numParticipants ≤ r) (hcap : a.config.numParticipants < 2 ^ 58)
    (ht : a.config.degree + 2 ≤ a.config.numParticipants ∨
      (m = .wrapping ∧ a.config.degree + 1 = a.config.numParticipants)) :
    ∃ rng', a.shareVerify S m rng sh = .ok rng' := by
  obtain ⟨pk, hk, hs⟩ := hg.keys
  obtain ⟨q, hq, hsig⟩ := hg.signed
  have hlen := hs.comms_length
  have hdeg : (ensureDegree m rng sh.core.comms a.config.degree).isOk := by
    rcases ht with ht | ⟨rfl, ht⟩
    · exact ⟨_, C12_group m rng _ _ (codeword_of_shares hs) (by omega) (by omega) (by omega)⟩
    · exact C14_succ_wrapping rng _ _ (by omega) (by omega)
  obtain ⟨rng', hrng⟩ := hdeg
  refine ⟨rng', (shareVerify_iff S hS m a rng rng' sh).2 ⟨q, hq, hg.id_lt, hs.encs_length, hlen, hrng, ?_, ?_, hsig⟩⟩
  · rw [lagrangeSimple_iff m (by omega) (by omega) (by omega), hg.gs]
    exact interpolatesTo_of_shares hs
  · have := encOk_of_shares S hS hs hg.id_lt
    obtain ⟨q', hq', hpk⟩ := hk _ hg.id_lt
    rw [hq] at hq'
    cases hq'
    rw [hpk]
    exact this

omit [Fact r.Prime] [AddCommGroup G1] [DecidableEq G1] [AddCommGroup G2] [DecidableEq G2] [Module (ZMod r) G1]
  [Module (ZMod r) G2] in
theorem get_ofShare (degree n : ℕ) (s : PVSSShare r G1 G2) (i : ℕ) :
    (AggShare.ofShare degree n s).contributions.get i = if i = s.participantId then some (s.signedProof, 1) else none := by
  unfold AggShare.ofShare
  simp only
  rw [BMap.get_insert]
  simp

/-- A compatible transcript takes the share. -/
theorem aggregatePvssShare_ok (m : Mode) (cfg : Config G1 G2) (tx : AggShare r G1 G2) (s : PVSSShare r G1 G2)
    (hc : Spec.Compatible cfg tx s.participantId s.signedProof.decompProof.gs) (hn : 1 ≤ cfg.numParticipants)
    (he : s.core.encs.length = cfg.numParticipants) (hc' : s.core.comms.length = cfg.numParticipants) :
    ∃ tx', tx.aggregatePvssShare m s = .ok tx' := by
  classical
  have hm : ∀ i, ∃ v, mergeVal m (tx.contributions.get i)
      ((AggShare.ofShare tx.degree tx.numParticipants s).contributions.get i) = .ok v := by
    intro i
    rw [get_ofShare]
    split
    · rename_i hi
      subst hi
      cases h : tx.contributions.get s.participantId with
      | none => exact ⟨_, mergeVal_none_left m _⟩
      | some x =>
        obtain ⟨x, w⟩ := x
        obtain ⟨h1, h2⟩ := hc.room x w h
        exact ⟨_, (mergeVal_some_ok_iff _ _ _ _ _ _).2 ⟨h1, _, addWeight_noOverflow m (by simpa using h2), rfl⟩⟩
    · exact ⟨_, mergeVal_none_right m _⟩
  choose v hv using hm
  have hne : tx.core.comms ≠ [] := by
    intro h0
    have := hc.comms_length
    rw [h0] at this
    simp at this
    omega
  refine ⟨⟨tx.numParticipants, tx.degree, ⟨_, _⟩,
    BMap.ofList (((List.range tx.numParticipants).map fun i => (v i).map fun u => (i, u)).filterMap id)⟩,
    (aggregate_iff m _ _ _).2 ⟨rfl, rfl, rfl, rfl,
    (coreAggregate_iff _ _ _).2 ⟨hne, ?_, ?_, ?_, rfl, rfl⟩, fun i hi => ?_, fun i hi => ?_⟩⟩
  · simp [AggShare.ofShare, hc.comms_length, hc']
  · simp [AggShare.ofShare, hc.encs_length, he]
  · rw [hc.comms_length, hc.encs_length]
  · simp only
    rw [get_collected, if_pos hi, hv]
  · simp only
    rw [get_collected, if_neg (by omega)]

theorem receiveShare_ok_iff (S : Suite r G1 G2 K) (m : Mode) (a a' : Aggregator r G1 G2) (rng : Rng r)
    (sh : PVSSShare r G1 G2) :
    a.receiveShare S m rng sh = (.ok (), a') ↔
      ∃ rng' tx, a.shareVerify S m rng sh = .ok rng' ∧ a.tx.aggregatePvssShare m sh = .ok tx ∧ a' = { a with tx := tx } := by
  unfold Aggregator.receiveShare
  cases a.shareVerify S m rng sh with
  | ok rng' =>
    simp only [Res.unwrap_ok]
    cases a.tx.aggregatePvssShare m sh <;> simp [eq_comm]
  | err e => simp
  | panic => simp
  | diverge => simp

theorem receiveAgg_ok_iff (S : Suite r G1 G2 K) (m : Mode) (a a' : Aggregator r G1 G2) (rng : Rng r)
    (ag : AggShare r G1 G2) :
    a.receiveAggregatedShare S m rng ag = (.ok (), a') ↔
      ∃ rng' tx, a.aggregationVerify S m rng ag = .ok rng' ∧ a.tx.aggregate m ag = .ok tx ∧ a' = { a with tx := tx } := by
  unfold Aggregator.receiveAggregatedShare
  cases a.aggregationVerify S m rng ag with
  | ok rng' =>
    simp only [Res.unwrap_ok]
    cases a.tx.aggregate m ag <;> simp [eq_comm]
  | err e => simp
  | panic => simp
  | diverge => simp

/-! ### aggregated shares -/

theorem batchEq_of_shares (S : Suite r G1 G2 K) (hS : PairLaws S) {g2 : G2} {n t : ℕ} {pk : ℕ → G1}
    {core : PVSSCore G1 G2} {p : (ZMod r)[X]} (h : Spec.Shares g2 n t pk core p) (ρ : ZMod r) :
    Spec.BatchEq S g2 pk core ρ := by
  have h1 : core.encs = (List.range n).map fun i => p.eval (Spec.point r i) • pk i := by
    apply List.ext_getElem (by simp [h.encs_length])
    intro i hi _
    simp [h.enc i hi]
  have h2 : core.comms.zipIdx = (List.range n).map fun i => (p.eval (Spec.point r i) • g2, i) := by
    apply List.ext_getElem (by simp [h.comms_length])
    intro i hi _
    have hi' : i < core.comms.length := by simpa using hi
    simp [h.comm i hi']
  unfold Spec.BatchEq
  rw [h1, h2, List.map_map, List.smul_sum, List.map_map, hS.sum_left]
  congr 1
  refine List.map_congr_left fun i _ => ?_
  simp only [Function.comp]
  rw [← hS.smul_comm, smul_smul, smul_smul, mul_comm]

/-- Good transcripts are accepted with every random stream. -/
theorem aggregationVerify_good (S : Suite r G1 G2 K) (hS : PairLaws S) (m : Mode) (a : Aggregator r G1 G2) (rng : Rng r)
    (ag : AggShare r G1 G2) (p : (ZMod r)[X]) (pk : ℕ → G1)
    (hk : Spec.KeyTable a.participants a.config.numParticipants pk)
    (hs : Spec.Shares a.config.srs.g2 a.config.numParticipants a.config.degree pk ag.core p)
    (hw : Spec.weightedGs ag.contributions = p.eval 0 • a.config.srs.g2)
    (hc : ∀ i x w, ag.contributions.get i = some (x, w) →
          ∃ q, a.participants.get i = some q ∧ Spec.SignedOk S a.config.srs.g2 q.pkEd x)
    (hn : a.config.numParticipants ≤ r) (hcap : a.config.numParticipants < 2 ^ 58)
    (ht : a.config.degree + 2 ≤ a.config.numParticipants ∨
      (m = .wrapping ∧ a.config.degree + 1 = a.config.numParticipants)) :
    ∃ rng', a.aggregationVerify S m rng ag = .ok rng' := by
  have hlen := hs.comms_length
  have hdeg : (ensureDegree m rng ag.core.comms a.config.degree).isOk := by
    rcases ht with ht | ⟨rfl, ht⟩
    · exact ⟨_, C12_group m rng _ _ (codeword_of_shares hs) (by omega) (by omega) (by omega)⟩
    · exact C14_succ_wrapping rng _ _ (by omega) (by omega)
  obtain ⟨rng1, hrng⟩ := hdeg
  refine ⟨_, (aggregationVerify_iff S hS m a rng _ ag).2 ⟨hs.encs_length, hlen, rng1, hrng,
    ⟨pk, hk, batchEq_of_shares S hS hs _⟩, hc, ?_, rfl⟩⟩
  rw [lagrangeSimple_iff m (by omega) (by omega) (by omega), hw]
  exact interpolatesTo_of_shares hs

theorem weightedGs_ofShare (degree n : ℕ) (s : PVSSShare r G1 G2) :
    Spec.weightedGs (AggShare.ofShare degree n s).contributions = s.signedProof.decompProof.gs := by
  have : (AggShare.ofShare degree n s).contributions.entries = [(s.participantId, (s.signedProof, 1))] := rfl
  unfold Spec.weightedGs
  rw [this]
  simp

end Verif
