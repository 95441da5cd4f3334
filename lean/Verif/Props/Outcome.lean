import Verif.Props.Verify
import Verif.Props.Aggregate

/-!
# Exact outcomes of the verification and receiving methods: C70 – C72
-/

open Finset Polynomial

namespace Verif

set_option linter.unusedSectionVars false

variable {r : ℕ} [Fact r.Prime] {G1 G2 K : Type}
  [AddCommGroup G1] [DecidableEq G1] [AddCommGroup G2] [DecidableEq G2] [CommMonoid K] [DecidableEq K]
  [Module (ZMod r) G1] [Module (ZMod r) G2]

theorem signedVerify_panic (S : Suite r G1 G2 K) (hH : HashTotal S.hash) {p : SignedProof r G2} {cfg : Config G1 G2}
    {pk : PublicKey} (h : ¬ Spec.SignedOk S cfg.srs.g2 pk p) : p.verify S cfg pk = .panic := by
  rcases (C18_signed S p cfg pk).2 hH with h' | h'
  · exact absurd ((signedVerify_iff S p cfg pk).1 h') h
  · exact h'

theorem ensureDegree_fail (m : Mode) (rng : Rng r) {evs : List G2} {t : ℕ} (ht : t + 2 ≤ evs.length)
    (hn : evs.length ≤ r) (hcap : evs.length < 2 ^ 58) (h : ¬ Spec.DegreeTest t evs rng) :
    ensureDegree m rng evs t = .err .DualCodeError := by
  rw [ensureDegree_eq m rng evs ht hn hcap, if_pos]
  rwa [Ne, dualSum_eq_degreeTest]

theorem ensureDegree_pass (m : Mode) (rng : Rng r) {evs : List G2} {t : ℕ} (ht : t + 2 ≤ evs.length)
    (hn : evs.length ≤ r) (hcap : evs.length < 2 ^ 58) (h : Spec.DegreeTest t evs rng) :
    ensureDegree m rng evs t = .ok (rng.drop (evs.length - t - 1)) :=
  (ensureDegree_iff m rng _ evs ht hn hcap).2 ⟨h, rfl⟩

/-! ### C70 -/

/-- **C70**. The outcome of `share_verify` for every share, as a decision list: each line assumes that the checks of the lines
above have passed. A share of a registered sender whose vectors do not reach the sender's position and a share with an invalid
signed proof make the verifier panic; all other defects give the error of the first failing check. -/
theorem C70 (S : Suite r G1 G2 K) (hS : PairLaws S) (hH : HashTotal S.hash) (m : Mode) (a : Aggregator r G1 G2) (rng : Rng r)
    (sh : PVSSShare r G1 G2) (ht : a.config.degree + 2 ≤ a.config.numParticipants)
    (hn : a.config.numParticipants ≤ r) (hcap : a.config.numParticipants < 2 ^ 58) :
    (a.participants.get sh.participantId = none →
      a.shareVerify S m rng sh = .err (.InvalidParticipantId sh.participantId)) ∧
    ∀ q, a.participants.get sh.participantId = some q →
      (¬ (sh.participantId < sh.core.comms.length ∧ sh.participantId < sh.core.encs.length) →
        a.shareVerify S m rng sh = .panic) ∧
      (sh.participantId < sh.core.comms.length ∧ sh.participantId < sh.core.encs.length →
        (¬ Spec.EncOk S a.config.srs.g2 q.pkSig sh.core sh.participantId →
          a.shareVerify S m rng sh = .err .EncryptionCorrectnessError) ∧
        (Spec.EncOk S a.config.srs.g2 q.pkSig sh.core sh.participantId →
          (¬ (sh.core.encs.length = a.config.numParticipants ∧ sh.core.comms.length = a.config.numParticipants) →
            a.shareVerify S m rng sh = .err (.MismatchedCommitsEncryptionsParticipantsError sh.core.encs.length
              sh.core.comms.length a.config.numParticipants)) ∧
          (sh.core.encs.length = a.config.numParticipants ∧ sh.core.comms.length = a.config.numParticipants →
            (¬ Spec.DegreeTest a.config.degree sh.core.comms rng →
              a.shareVerify S m rng sh = .err .DualCodeError) ∧
            (Spec.DegreeTest a.config.degree sh.core.comms rng →
              (¬ Spec.InterpolatesTo r a.config.degree sh.core.comms sh.signedProof.decompProof.gs →
                a.shareVerify S m rng sh = .err .GSCheckError) ∧
              (Spec.InterpolatesTo r a.config.degree sh.core.comms sh.signedProof.decompProof.gs →
                (¬ Spec.SignedOk S a.config.srs.g2 q.pkEd sh.signedProof → a.shareVerify S m rng sh = .panic) ∧
                (Spec.SignedOk S a.config.srs.g2 q.pkEd sh.signedProof →
                  a.shareVerify S m rng sh =
                    .ok (rng.drop (a.config.numParticipants - a.config.degree - 1)))))))) := by
  unfold Aggregator.shareVerify
  simp only
  refine ⟨fun h => by rw [h]; rfl, fun q hq => ?_⟩
  rw [hq]
  simp only [Res.ofOption, Res.bind_ok']
  refine ⟨fun h => ?_, fun ⟨hc, he⟩ => ?_⟩
  · by_cases hc : sh.participantId < sh.core.comms.length
    · have he : sh.core.encs.length ≤ sh.participantId := by omega
      rw [idx_ok hc, Res.bind_ok', show (idx sh.core.encs sh.participantId : Res PVSSError _) = .panic by
        simp [idx, List.getElem?_eq_none he]]
      rfl
    · rw [show (idx sh.core.comms sh.participantId : Res PVSSError _) = .panic by
        simp [idx, List.getElem?_eq_none (Nat.le_of_not_lt hc)]]
      rfl
  rw [idx_ok hc, Res.bind_ok', idx_ok he, Res.bind_ok']
  have henc : Spec.EncOk S a.config.srs.g2 q.pkSig sh.core sh.participantId ↔
      prodPairings S [(q.pkSig, sh.core.comms[sh.participantId]), (-sh.core.encs[sh.participantId], a.config.srs.g2)] = 1 := by
    rw [pairCheck_iff hS]
    constructor
    · rintro ⟨e, c, h1, h2, h3⟩
      rw [List.getElem?_eq_getElem he] at h1
      rw [List.getElem?_eq_getElem hc] at h2
      cases h1; cases h2; exact h3
    · intro h
      exact ⟨_, _, List.getElem?_eq_getElem he, List.getElem?_eq_getElem hc, h⟩
  refine ⟨fun h => ?_, fun h => ?_⟩
  · rw [if_pos (fun h' => h (henc.2 h'))]
  rw [if_neg (not_not.2 (henc.1 h))]
  unfold Aggregator.coreVerify
  refine ⟨fun h => ?_, fun ⟨hl1, hl2⟩ => ?_⟩
  · rw [if_pos (by tauto)]; rfl
  rw [if_neg (by tauto)]
  refine ⟨fun h => ?_, fun h => ?_⟩
  · rw [ensureDegree_fail m rng (by omega) (by omega) (by omega) h]; rfl
  rw [ensureDegree_pass m rng (by omega) (by omega) (by omega) h]
  have hlag := fun P => lagrangeSimple_iff (r := r) m (evs := sh.core.comms) (t := a.config.degree) (by omega) (by omega)
    (by omega) P
  obtain ⟨P, hP⟩ : ∃ P, lagrangeSimple (r := r) m sh.core.comms a.config.degree = .ok P :=
    ⟨_, lagrangeSimple_eq m _ (by omega) (by omega) (by omega)⟩
  rw [hP]
  simp only [Res.orErr, Res.unwrap, Res.bind_ok']
  refine ⟨fun h => ?_, fun h => ?_⟩
  · rw [if_pos]; · rfl
    rintro rfl
    exact h ((hlag _).1 hP)
  have hPgs : P = sh.signedProof.decompProof.gs := by
    have := (hlag _).2 h
    rw [hP] at this
    exact Res.ok.inj this
  rw [if_neg (not_not.2 hPgs), Res.bind_ok']
  refine ⟨fun h => ?_, fun h => ?_⟩
  · rw [signedVerify_panic S hH h]; rfl
  · rw [(signedVerify_iff S _ _ _).2 h, hl2]; rfl

/-! ### C71 -/

/-- **C71**. The outcome of `aggregation_verify` for every transcript, as a decision list in the same form. An unregistered
party below `n`, and a contribution of an unregistered party or with an invalid signed proof, make the verifier panic. -/
theorem C71 (S : Suite r G1 G2 K) (hS : PairLaws S) (hH : HashTotal S.hash) (m : Mode) (a : Aggregator r G1 G2) (rng : Rng r)
    (ag : AggShare r G1 G2) (ht : a.config.degree + 2 ≤ a.config.numParticipants)
    (hn : a.config.numParticipants ≤ r) (hcap : a.config.numParticipants < 2 ^ 58) :
    (¬ (ag.core.encs.length = a.config.numParticipants ∧ ag.core.comms.length = a.config.numParticipants) →
      a.aggregationVerify S m rng ag = .err (.MismatchedCommitsEncryptionsParticipantsError ag.core.encs.length
        ag.core.comms.length a.config.numParticipants)) ∧
    (ag.core.encs.length = a.config.numParticipants ∧ ag.core.comms.length = a.config.numParticipants →
      (¬ Spec.DegreeTest a.config.degree ag.core.comms rng → a.aggregationVerify S m rng ag = .err .DualCodeError) ∧
      (Spec.DegreeTest a.config.degree ag.core.comms rng →
        ((∃ i < a.config.numParticipants, a.participants.get i = none) → a.aggregationVerify S m rng ag = .panic) ∧
        ∀ pk, Spec.KeyTable a.participants a.config.numParticipants pk →
          (¬ Spec.BatchEq S a.config.srs.g2 pk ag.core (rng (a.config.numParticipants - a.config.degree - 1)) →
            a.aggregationVerify S m rng ag = .err .EncryptionCorrectnessError) ∧
          (Spec.BatchEq S a.config.srs.g2 pk ag.core (rng (a.config.numParticipants - a.config.degree - 1)) →
            (¬ (∀ i x w, ag.contributions.get i = some (x, w) →
                ∃ q, a.participants.get i = some q ∧ Spec.SignedOk S a.config.srs.g2 q.pkEd x) →
              a.aggregationVerify S m rng ag = .panic) ∧
            ((∀ i x w, ag.contributions.get i = some (x, w) →
                ∃ q, a.participants.get i = some q ∧ Spec.SignedOk S a.config.srs.g2 q.pkEd x) →
              (¬ Spec.InterpolatesTo r a.config.degree ag.core.comms (Spec.weightedGs ag.contributions) →
                a.aggregationVerify S m rng ag = .err .AggregationReconstructionMismatchError) ∧
              (Spec.InterpolatesTo r a.config.degree ag.core.comms (Spec.weightedGs ag.contributions) →
                a.aggregationVerify S m rng ag =
                  .ok (rng.drop (a.config.numParticipants - a.config.degree))))))) := by
  unfold Aggregator.aggregationVerify
  simp only
  refine ⟨fun h => by rw [if_pos (by tauto)], fun ⟨hl1, hl2⟩ => ?_⟩
  rw [if_neg (by tauto)]
  refine ⟨fun h => ?_, fun h => ?_⟩
  · rw [ensureDegree_fail m rng (by omega) (by omega) (by omega) h]; rfl
  rw [ensureDegree_pass m rng (by omega) (by omega) (by omega) h]
  simp only [Res.orErr, Res.bind_ok']
  have hρ : (rng.drop (ag.core.comms.length - a.config.degree - 1)) 0 =
      rng (a.config.numParticipants - a.config.degree - 1) := by rw [hl2]; rfl
  rw [hρ]
  refine ⟨fun ⟨i, hi, hni⟩ => ?_, fun pk hk => ?_⟩
  · have htot : (loop (a.pairStep ag.core (List.replicate a.config.numParticipants
        (rng (a.config.numParticipants - a.config.degree - 1)))) (0, []) (List.range a.config.numParticipants)).Total := by
      refine loop_total (fun s i => ?_) _ _
      unfold Aggregator.pairStep
      refine (idx_total _ _).bind fun _ => (idx_total _ _).bind fun _ => Res.Total.bind ?_ fun _ => (idx_total _ _).bind
        fun _ => .ok _
      cases a.participants.get i
      · exact .panic
      · exact .ok _
    rcases htot with h' | ⟨x, h'⟩
    · rw [h']; rfl
    · obtain ⟨q, hq⟩ := pairLoop_ok_keys h' i hi
      rw [hni] at hq; cases hq
  rw [pairLoop_eq a ag.core _ pk hk hl1 hl2, Res.bind_ok']
  simp only
  refine ⟨fun h => ?_, fun h => ?_⟩
  · rw [if_pos]
    rwa [Ne, batch_iff hS]
  rw [if_neg (not_not.2 ((batch_iff hS _ _ _ _).2 h))]
  have hlag := fun P => lagrangeSimple_iff (r := r) m (evs := ag.core.comms) (t := a.config.degree) (by omega) (by omega)
    (by omega) P
  obtain ⟨P, hP⟩ : ∃ P, lagrangeSimple (r := r) m ag.core.comms a.config.degree = .ok P :=
    ⟨_, lagrangeSimple_eq m _ (by omega) (by omega) (by omega)⟩
  rw [hP]
  simp only [Res.unwrap, Res.bind_ok']
  have hall : (∀ i x w, ag.contributions.get i = some (x, w) →
      ∃ q, a.participants.get i = some q ∧ Spec.SignedOk S a.config.srs.g2 q.pkEd x) ↔
      ∀ e ∈ ag.contributions.entries, ∃ q, a.participants.get e.1 = some q ∧ Spec.SignedOk S a.config.srs.g2 q.pkEd e.2.1 :=
    ⟨fun h e he => h e.1 e.2.1 e.2.2 (ag.contributions.mem_entries.1 he),
     fun h i x w hi => h (i, x, w) (ag.contributions.mem_entries.2 hi)⟩
  refine ⟨fun h => ?_, fun h => ?_⟩
  · have htot : (loop (a.contribStep S) 0 ag.contributions.entries).Total := by
      refine loop_total (fun s e => ?_) _ _
      unfold Aggregator.contribStep
      refine Res.Total.bind ?_ fun q => Res.Total.bind ?_ fun _ => .ok _
      · cases a.participants.get e.1
        · exact .panic
        · exact .ok _
      · rcases (C18_signed S e.2.1 a.config q.pkEd).2 hH with h' | h' <;> rw [h']
        · exact .ok _
        · exact .panic
    rcases htot with h' | ⟨x, h'⟩
    · rw [h']; rfl
    · exact absurd (hall.2 ((contribLoop_iff S a _ _ _).1 h').1) h
  rw [(contribLoop_iff S a _ 0 _).2 ⟨hall.1 h, rfl⟩, Res.bind_ok', zero_add]
  have hw : (ag.contributions.entries.map fun e => ((e.2.2.toNat : ℕ) : ZMod r) • e.2.1.decompProof.gs).sum =
      Spec.weightedGs ag.contributions := rfl
  rw [hw]
  refine ⟨fun h => ?_, fun h => ?_⟩
  · rw [if_pos]
    rintro rfl
    exact h ((hlag _).1 hP)
  · have : P = Spec.weightedGs ag.contributions := by
      have := (hlag _).2 h
      rw [hP] at this
      exact Res.ok.inj this
    rw [if_neg (not_not.2 this.symm), hl2]
    congr 1
    funext k
    show rng (_ + (1 + k)) = rng (_ + k)
    congr 1; omega

/-- Non-vacuity of C70: an unregistered sender; a registered sender with vectors too short; the accepted share. -/
example (rng : Rng 13) (sp : SignedProof 13 (ZMod 13)) :
    Toy.agg.shareVerify (Toy.suite 13) .checked rng ⟨7, Toy.core52, sp⟩ = .err (.InvalidParticipantId 7) ∧
    Toy.agg.shareVerify (Toy.suite 13) .checked rng ⟨2, ⟨[1, 2], [1, 2]⟩, sp⟩ = .panic ∧
    ∃ sh, Toy.agg.shareVerify (Toy.suite 13) .checked rng sh = .ok (rng.drop 2) := by
  have key := fun sh => C70 (Toy.suite 13) (Toy.pairLaws 13) (Toy.hashTotal 13) .checked Toy.agg rng sh (by decide) (by decide)
    (by decide)
  refine ⟨(key ⟨7, Toy.core52, sp⟩).1 rfl, ((key ⟨2, ⟨[1, 2], [1, 2]⟩, sp⟩).2 _ rfl).1 (by simp), ?_⟩
  obtain ⟨sh, -, -, -, h⟩ := Toy.accepted52
  obtain ⟨rng', h⟩ := h rng
  have := ((C15 (Toy.suite 13) (Toy.pairLaws 13) .checked Toy.agg rng rng' sh (by decide) (by decide) (by decide)).1 h)
  exact ⟨sh, by rw [h, this.2.2.2.2.2.2]; rfl⟩

/-- Non-vacuity of C71: a transcript with vectors too short, and an accepted one. -/
example (rng : Rng 13) :
    Toy.agg.aggregationVerify (Toy.suite 13) .checked rng ⟨4, 1, ⟨[1], [2, 3]⟩, BMap.empty⟩ =
      .err (.MismatchedCommitsEncryptionsParticipantsError 1 2 4) ∧
    ∃ ag, Toy.agg.aggregationVerify (Toy.suite 13) .checked rng ag = .ok (rng.drop 3) := by
  refine ⟨(C71 (Toy.suite 13) (Toy.pairLaws 13) (Toy.hashTotal 13) .checked Toy.agg rng _ (by decide) (by decide)
    (by decide)).1 (by decide), ?_⟩
  obtain ⟨ag, -, -, h⟩ := Toy.acceptedAgg
  obtain ⟨rng', h⟩ := h rng
  have := ((C20 (Toy.suite 13) (Toy.pairLaws 13) .checked Toy.agg rng rng' ag (by decide) (by decide) (by decide)).1 h)
  exact ⟨ag, by rw [h, this.2.2.2.2.2.2]; rfl⟩

/-! ### C72 -/

/-- **C72** (single share). What an accepted share does to the aggregator, for every state and share: only the transcript
changes; its core grows by the share's core; the sender's entry becomes the share's signed proof with weight one, or, when
present, keeps its signed proof (which has the same `gs`) and its weight grows by one (modulo `2^64`, without wrapping in
checked builds); entries of the other parties stay, entries at or above `num_participants` disappear. -/
theorem C72_share (S : Suite r G1 G2 K) (m : Mode) (a a' : Aggregator r G1 G2) (rng : Rng r) (sh : PVSSShare r G1 G2)
    (h : a.receiveShare S m rng sh = (.ok (), a')) :
    a'.config = a.config ∧ a'.participants = a.participants ∧
    a'.tx.degree = a.tx.degree ∧ a'.tx.numParticipants = a.tx.numParticipants ∧
    Spec.SumOf a.tx.core.encs sh.core.encs a'.tx.core.encs ∧ Spec.SumOf a.tx.core.comms sh.core.comms a'.tx.core.comms ∧
    (∀ i < a.tx.numParticipants, i ≠ sh.participantId → a'.tx.contributions.get i = a.tx.contributions.get i) ∧
    (∀ i, a.tx.numParticipants ≤ i → a'.tx.contributions.get i = none) ∧
    (sh.participantId < a.tx.numParticipants →
      (a.tx.contributions.get sh.participantId = none →
        a'.tx.contributions.get sh.participantId = some (sh.signedProof, 1)) ∧
      ∀ x w, a.tx.contributions.get sh.participantId = some (x, w) →
        a'.tx.contributions.get sh.participantId = some (x, w + 1) ∧
        x.decompProof.gs = sh.signedProof.decompProof.gs ∧ (m = .checked → w.toNat + 1 < 2 ^ 64)) := by
  obtain ⟨rng', tx, -, hagg, rfl⟩ := (receiveShare_ok_iff S m a a' rng sh).1 h
  obtain ⟨h1, h2, h3, h4, h5, h6, h7⟩ := (aggregate_iff m _ _ _).1 hagg
  have hsum := ((C22 a.tx.core sh.core).1 tx.core).1 h5
  refine ⟨rfl, rfl, h3, h4, hsum.2.2.2.2.1, hsum.2.2.2.2.2, fun i hi hne => ?_, h7, fun hlt => ⟨fun hnone => ?_, fun x w hx => ?_⟩⟩
  · have := h6 i hi
    rw [get_ofShare, if_neg hne, mergeVal_none_right] at this
    exact (Res.ok.inj this).symm
  · have := h6 _ hlt
    rw [get_ofShare, if_pos rfl, hnone, mergeVal_none_left] at this
    exact (Res.ok.inj this).symm
  · have := h6 _ hlt
    rw [get_ofShare, if_pos rfl, hx, mergeVal_some_ok_iff] at this
    obtain ⟨hgs, w', hw, hv⟩ := this
    rw [addWeight_ok_eq hw] at hv
    refine ⟨hv, hgs, ?_⟩
    rintro rfl
    exact (addWeight_checked_iff.1 hw).1

/-- **C72** (transcripts). The same for a received transcript: cores add up; an entry present on one side only is taken over;
entries present on both sides have equal `gs`, the own signed proof is kept and the weights add up. -/
theorem C72_agg (S : Suite r G1 G2 K) (m : Mode) (a a' : Aggregator r G1 G2) (rng : Rng r) (ag : AggShare r G1 G2)
    (h : a.receiveAggregatedShare S m rng ag = (.ok (), a')) :
    a'.config = a.config ∧ a'.participants = a.participants ∧
    a.tx.degree = ag.degree ∧ a.tx.numParticipants = ag.numParticipants ∧
    a'.tx.degree = a.tx.degree ∧ a'.tx.numParticipants = a.tx.numParticipants ∧
    Spec.SumOf a.tx.core.encs ag.core.encs a'.tx.core.encs ∧ Spec.SumOf a.tx.core.comms ag.core.comms a'.tx.core.comms ∧
    (∀ i < a.tx.numParticipants,
      (ag.contributions.get i = none → a'.tx.contributions.get i = a.tx.contributions.get i) ∧
      (a.tx.contributions.get i = none → a'.tx.contributions.get i = ag.contributions.get i) ∧
      ∀ x w y w', a.tx.contributions.get i = some (x, w) → ag.contributions.get i = some (y, w') →
        a'.tx.contributions.get i = some (x, w + w') ∧ x.decompProof.gs = y.decompProof.gs ∧
        (m = .checked → w.toNat + w'.toNat < 2 ^ 64)) ∧
    (∀ i, a.tx.numParticipants ≤ i → a'.tx.contributions.get i = none) := by
  obtain ⟨rng', tx, -, hagg, rfl⟩ := (receiveAgg_ok_iff S m a a' rng ag).1 h
  obtain ⟨h1, h2, h3, h4, h5, h6, h7⟩ := (aggregate_iff m _ _ _).1 hagg
  have hsum := ((C22 a.tx.core ag.core).1 tx.core).1 h5
  refine ⟨rfl, rfl, h1, h2, h3, h4, hsum.2.2.2.2.1, hsum.2.2.2.2.2, fun i hi => ⟨fun hn => ?_, fun hn => ?_,
    fun x w y w' hx hy => ?_⟩, h7⟩
  · have := h6 i hi
    rw [hn, mergeVal_none_right] at this
    exact (Res.ok.inj this).symm
  · have := h6 i hi
    rw [hn, mergeVal_none_left] at this
    exact (Res.ok.inj this).symm
  · have := h6 i hi
    rw [hx, hy, mergeVal_some_ok_iff] at this
    obtain ⟨hgs, w'', hw, hv⟩ := this
    rw [addWeight_ok_eq hw] at hv
    refine ⟨hv, hgs, ?_⟩
    rintro rfl
    exact (addWeight_checked_iff.1 hw).1

/-- Non-vacuity of C72: a share received by a fresh aggregator, whose entry then is the share's proof with weight one. -/
example (rng : Rng 13) : ∃ sh a', Toy.agg.receiveShare (Toy.suite 13) .checked rng sh = (.ok (), a') ∧
    a'.tx.contributions.get 2 = some (sh.signedProof, 1) := by
  obtain ⟨sh, rng', hsh, -⟩ := Toy.share52
  have hok := C03_fresh (Toy.suite 13) (Toy.pairLaws 13) Toy.edLaws .checked .checked (Toy.node 2)
    (Toy.goodDealer 2 (by decide)) Toy.rng52 rng' sh hsh (by decide) (by decide) (Or.inl (by decide)) rng
  have hid : sh.participantId = 2 :=
    (share_good (Toy.suite 13) Toy.edLaws .checked (Toy.node 2) (Toy.goodDealer 2 (by decide)) Toy.rng52 rng' sh hsh).1
  have hrec : Toy.agg.receiveShare (Toy.suite 13) .checked rng sh =
      (.ok (), (Toy.agg.receiveShare (Toy.suite 13) .checked rng sh).2) := Prod.ext hok rfl
  have := (C72_share (Toy.suite 13) .checked Toy.agg _ rng sh hrec).2.2.2.2.2.2.2.2 (by rw [hid]; decide)
  refine ⟨sh, _, hrec, ?_⟩
  have h2 := this.1 rfl
  rwa [hid] at h2

end Verif
