import Verif.Props.History

/-!
# Weights chosen by the sender of a transcript: C62, C63
-/

open Finset Polynomial

set_option linter.unusedSectionVars false

namespace Verif

variable {r : ℕ} [Fact r.Prime] {G1 G2 K : Type}
  [AddCommGroup G1] [DecidableEq G1] [AddCommGroup G2] [DecidableEq G2] [CommMonoid K] [DecidableEq K]
  [Module (ZMod r) G1] [Module (ZMod r) G2]

/-- The `k`-fold of one share as an aggregated share; needs no secret. -/
def Spec.scaled (cfg : Config G1 G2) (sh : PVSSShare r G1 G2) (k : ℕ) : AggShare r G1 G2 :=
  ⟨cfg.numParticipants, cfg.degree, ⟨sh.core.encs.map (k • ·), sh.core.comms.map (k • ·)⟩,
    BMap.ofList [(sh.participantId, (sh.signedProof, UInt64.ofNat k))]⟩

theorem get_scaled (cfg : Config G1 G2) (sh : PVSSShare r G1 G2) (k i : ℕ) :
    (Spec.scaled cfg sh k).contributions.get i =
      if i = sh.participantId then some (sh.signedProof, UInt64.ofNat k) else none := by
  show (BMap.ofList [(sh.participantId, (sh.signedProof, UInt64.ofNat k))]).get i = _
  rw [BMap.get_ofList]
  rfl

theorem weightedGs_scaled (cfg : Config G1 G2) (sh : PVSSShare r G1 G2) {k : ℕ} (hk : k < 2 ^ 64) :
    Spec.weightedGs (Spec.scaled cfg sh k).contributions = (k : ZMod r) • sh.signedProof.decompProof.gs := by
  have : (Spec.scaled cfg sh k).contributions.entries = [(sh.participantId, (sh.signedProof, UInt64.ofNat k))] := rfl
  unfold Spec.weightedGs
  rw [this]
  have hk' : (UInt64.ofNat k).toNat = k := by rw [UInt64.toNat_ofNat', Nat.mod_eq_of_lt hk]
  simp only [List.map_cons, List.map_nil, List.sum_cons, List.sum_nil, add_zero, hk']

theorem shares_scaled {cfg : Config G1 G2} {pk : ℕ → G1} {sh : PVSSShare r G1 G2} {p : (ZMod r)[X]} (k : ℕ)
    (h : Spec.Shares cfg.srs.g2 cfg.numParticipants cfg.degree pk sh.core p) :
    Spec.Shares cfg.srs.g2 cfg.numParticipants cfg.degree pk (Spec.scaled cfg sh k).core (C (k : ZMod r) * p) := by
  refine ⟨(natDegree_C_mul_le _ _).trans h.degree, by simp [Spec.scaled, h.encs_length], by simp [Spec.scaled, h.comms_length],
    fun i hi => ?_, fun i hi => ?_⟩
  · have hi' : i < sh.core.comms.length := by simpa [Spec.scaled] using hi
    simp only [Spec.scaled, List.getElem_map, h.comm i hi', eval_mul, eval_C]
    rw [mul_smul, Nat.cast_smul_eq_nsmul]
  · have hi' : i < sh.core.encs.length := by simpa [Spec.scaled] using hi
    simp only [Spec.scaled, List.getElem_map, h.enc i hi', eval_mul, eval_C]
    rw [mul_smul, Nat.cast_smul_eq_nsmul]

/-! ### C62 -/

theorem run_config (S : Suite r G1 G2 K) (m : Mode) (a : Aggregator r G1 G2) (ops : List (Op r G1 G2)) :
    (a.run S m ops).config = a.config ∧ (a.run S m ops).participants = a.participants := by
  induction ops generalizing a with
  | nil => exact ⟨rfl, rfl⟩
  | cons op ops ih =>
    obtain ⟨-, k1, k2⟩ := C19 S m a op
    obtain ⟨h1, h2⟩ := ih (a.step S m op).2
    exact ⟨h1.trans k1, h2.trans k2⟩

/-- The claim of C62: whatever one message a fresh aggregator has received, a correct share of a dealer whose recorded `gs` agrees is
still received. -/
def C62_claim (S : Suite r G1 G2 K) (m : Mode) (cfg : Config G1 G2) (ps : BMap (Participant G1)) : Prop :=
  ∀ op sh p, Spec.GoodShare S cfg ps sh p →
    (∀ x w, ((Aggregator.new cfg ps).step S m op).2.tx.contributions.get sh.participantId = some (x, w) →
      x.decompProof.gs = sh.signedProof.decompProof.gs) →
    ∀ rng, (((Aggregator.new cfg ps).step S m op).2.receiveShare S m rng sh).1 = .ok ()

/-- **C62** (proved part). After any sequence of calls with any inputs, a correct share is received if the recorded `gs` of its dealer
agrees and the recorded weight is below `2^64 - 1`. -/
theorem C62_partial (S : Suite r G1 G2 K) (hS : PairLaws S) (cfg : Config G1 G2) (ps : BMap (Participant G1))
    (hids : ∀ i q, ps.get i = some q → i < cfg.numParticipants) (hn : cfg.numParticipants ≤ r)
    (hcap : cfg.numParticipants < 2 ^ 58) (ht : cfg.degree + 2 ≤ cfg.numParticipants)
    (ops : List (Op r G1 G2)) (sh : PVSSShare r G1 G2) (p : (ZMod r)[X]) (hg : Spec.GoodShare S cfg ps sh p)
    (hroom : ∀ x w, ((Aggregator.new cfg ps).run S .checked ops).tx.contributions.get sh.participantId = some (x, w) →
      x.decompProof.gs = sh.signedProof.decompProof.gs ∧ w.toNat + 1 < 2 ^ 64) (rng : Rng r) :
    (((Aggregator.new cfg ps).run S .checked ops).receiveShare S .checked rng sh).1 = .ok () := by
  have hinv := C31 S hS cfg ps hids hn (by omega) ops
  obtain ⟨hc, hp⟩ := run_config S .checked (Aggregator.new cfg ps) ops
  generalize (Aggregator.new cfg ps).run S .checked ops = a at *
  obtain ⟨cfg', ps', tx⟩ := a
  change cfg' = cfg at hc
  change ps' = ps at hp
  subst hc hp
  obtain ⟨pk, hkt, hs⟩ := hg.keys
  obtain ⟨rng', hv⟩ := shareVerify_good S hS .checked ⟨cfg', ps', tx⟩ rng sh p hg hn hcap (Or.inl ht)
  obtain ⟨tx', h2⟩ := aggregatePvssShare_ok .checked cfg' tx sh
    ⟨hinv.degree, hinv.num, hinv.encs_length, hinv.comms_length, hroom⟩ (by omega) hs.encs_length hs.comms_length
  rw [(receiveShare_ok_iff S .checked ⟨cfg', ps', tx⟩ ⟨cfg', ps', tx'⟩ rng sh).2 ⟨rng', tx', hv, h2, rfl⟩]

/-- **C62** (acceptance). Anybody can scale an honest share by any `k < 2^64`: every peer accepts the result as an aggregated share
with weight `k`, for every random stream. -/
theorem C62_accept (S : Suite r G1 G2 K) (hS : PairLaws S) (m : Mode) (a : Aggregator r G1 G2) (sh : PVSSShare r G1 G2)
    (p : (ZMod r)[X]) (hg : Spec.GoodShare S a.config a.participants sh p) (k : ℕ) (hk : k < 2 ^ 64)
    (hn : a.config.numParticipants ≤ r) (hcap : a.config.numParticipants < 2 ^ 58)
    (ht : a.config.degree + 2 ≤ a.config.numParticipants) (rng : Rng r) :
    ∃ rng', a.aggregationVerify S m rng (Spec.scaled a.config sh k) = .ok rng' := by
  obtain ⟨pk, hkt, hs⟩ := hg.keys
  refine aggregationVerify_good S hS m a rng _ _ pk hkt (shares_scaled k hs) ?_ ?_ hn hcap (Or.inl ht)
  · rw [weightedGs_scaled _ _ hk, hg.gs, smul_smul, eval_mul, eval_C]
  · intro i x w hx
    rw [get_scaled] at hx
    split at hx
    · rename_i hi
      obtain ⟨rfl, rfl⟩ := Prod.mk.inj (Option.some.inj hx)
      subst hi
      exact hg.signed
    · cases hx

theorem addWeight_max : (addWeight .checked (UInt64.ofNat (2 ^ 64 - 1)) 1 : Res PVSSError _) = .panic := rfl

theorem scaled_max_panic (cfg : Config G1 G2) (sh : PVSSShare r G1 G2) (k : ℕ) (hk : k = 2 ^ 64 - 1)
    (hid : sh.participantId < cfg.numParticipants) (sh' : PVSSShare r G1 G2) (hid' : sh'.participantId = sh.participantId)
    (c : AggShare r G1 G2) :
    (Spec.scaled cfg sh k).aggregate .checked (AggShare.ofShare cfg.degree cfg.numParticipants sh') ≠ .ok c := by
  intro h
  have := ((aggregate_iff _ _ _ _).1 h).2.2.2.2.2.1 sh.participantId hid
  rw [get_scaled, get_ofShare, if_pos rfl, if_pos hid'.symm, mergeVal_some_ok_iff] at this
  obtain ⟨-, w, hw, -⟩ := this
  rw [hk, addWeight_max] at hw
  cases hw

/-- **C62** (lock-out). A fresh aggregator accepts the `2^64 - 1`-fold of an honest share. Afterwards, in a build with overflow checks,
no share of that dealer is received any more (the honest share panics), whatever the random stream; the state does not change. -/
theorem C62_lockout (S : Suite r G1 G2 K) (hS : PairLaws S) (cfg : Config G1 G2) (ps : BMap (Participant G1))
    (sh : PVSSShare r G1 G2) (p : (ZMod r)[X]) (hg : Spec.GoodShare S cfg ps sh p)
    (hn : cfg.numParticipants ≤ r) (hcap : cfg.numParticipants < 2 ^ 58)
    (ht : cfg.degree + 2 ≤ cfg.numParticipants) (rng : Rng r) :
    ∃ a', (Aggregator.new cfg ps).receiveAggregatedShare S .checked rng (Spec.scaled cfg sh (2 ^ 64 - 1)) = (.ok (), a') ∧
      (∀ rng', a'.receiveShare S .checked rng' sh = (.panic, a')) ∧
      (∀ rng' sh', sh'.participantId = sh.participantId →
        (a'.receiveShare S .checked rng' sh').1 ≠ .ok () ∧ (a'.receiveShare S .checked rng' sh').2 = a') := by
  obtain ⟨k, hk⟩ : ∃ k, k = 2 ^ 64 - 1 := ⟨_, rfl⟩
  rw [← hk]
  obtain ⟨rng1, hv⟩ := C62_accept S hS .checked (Aggregator.new cfg ps) sh p hg k (by omega) hn hcap ht rng
  obtain ⟨pk, hkt, hs⟩ := hg.keys
  have hs' := shares_scaled k hs
  have hid : sh.participantId < cfg.numParticipants := hg.id_lt
  have hwf : Spec.WellFormed cfg.degree cfg.numParticipants (Spec.scaled cfg sh k) := by
    refine ⟨rfl, rfl, hs'.encs_length, hs'.comms_length, fun i v hx => ?_⟩
    rw [get_scaled] at hx
    split at hx
    · rename_i hi; rw [hi]; exact hid
    · cases hx
  have hagg := (C25 .checked cfg.degree cfg.numParticipants (by omega) _ hwf).1
  have hno := scaled_max_panic cfg sh k hk hid
  refine ⟨{ config := cfg, participants := ps, tx := Spec.scaled cfg sh k },
    (receiveAgg_ok_iff _ _ _ _ _ _).2 ⟨rng1, _, hv, hagg, rfl⟩, fun rng' => ?_, fun rng' sh' hid' => ?_⟩
  · obtain ⟨rng2, hv2⟩ := shareVerify_good S hS .checked
      { config := cfg, participants := ps, tx := Spec.scaled cfg sh k } rng' sh p hg hn hcap (Or.inl ht)
    have hpanic : (Spec.scaled cfg sh k).aggregatePvssShare .checked sh = .panic := by
      cases h : (Spec.scaled cfg sh k).aggregatePvssShare .checked sh with
      | ok c => exact absurd h (hno sh rfl c)
      | panic => rfl
      | diverge => exact absurd h aggregate_ne_diverge
      | err e =>
        exfalso
        rcases aggregate_err h with ⟨h1, -⟩ | ⟨-, -, -, i, -, x, w, y, w', hx, hy, hne⟩
        · simp [AggShare.ofShare, Spec.scaled] at h1
        · rw [get_scaled] at hx
          rw [get_ofShare] at hy
          split at hx
          · rename_i hi
            rw [if_pos hi] at hy
            obtain ⟨rfl, rfl⟩ := Prod.mk.inj (Option.some.inj hx)
            obtain ⟨rfl, rfl⟩ := Prod.mk.inj (Option.some.inj hy)
            exact hne rfl
          · cases hx
    simp [Aggregator.receiveShare, hv2, hpanic, Res.unwrap]
  · have hne : (({ config := cfg, participants := ps, tx := Spec.scaled cfg sh k } :
        Aggregator r G1 G2).receiveShare S .checked rng' sh').1 ≠ .ok () := by
      intro h
      obtain ⟨_, tx, _, h2, _⟩ := (receiveShare_ok_iff S .checked _ _ rng' sh').1 (Prod.ext h rfl)
      exact hno sh' hid' tx h2
    exact ⟨hne, (C19 S .checked _ (.share rng' sh')).1 hne⟩

/-- **C62** (without overflow checks). The same two receipts succeed, and leave a transcript that every peer with the same
configuration and table refuses, for every random stream. -/
theorem C62_wrap (S : Suite r G1 G2 K) (hS : PairLaws S) (m : Mode) (hm : m ≠ .checked) (cfg : Config G1 G2)
    (ps : BMap (Participant G1)) (sh : PVSSShare r G1 G2) (p : (ZMod r)[X]) (hg : Spec.GoodShare S cfg ps sh p)
    (hn : cfg.numParticipants ≤ r) (hcap : cfg.numParticipants < 2 ^ 58) (ht : cfg.degree + 2 ≤ cfg.numParticipants)
    (hr : ((2 ^ 64 : ℕ) : ZMod r) ≠ 0) (hgs : sh.signedProof.decompProof.gs ≠ 0) (rng rng' : Rng r) :
    ∃ a' a'', (Aggregator.new cfg ps).receiveAggregatedShare S m rng (Spec.scaled cfg sh (2 ^ 64 - 1)) = (.ok (), a') ∧
      a'.receiveShare S m rng' sh = (.ok (), a'') ∧
      ∀ peer : Aggregator r G1 G2, peer.config = cfg → peer.participants = ps →
        ∀ m' rng1 rng2, peer.aggregationVerify S m' rng1 a''.tx ≠ .ok rng2 := by
  obtain ⟨k, hk⟩ : ∃ k, k = 2 ^ 64 - 1 := ⟨_, rfl⟩
  rw [← hk]
  obtain ⟨rng1, hv⟩ := C62_accept S hS m (Aggregator.new cfg ps) sh p hg k (by omega) hn hcap ht rng
  obtain ⟨pk, hkt, hs⟩ := hg.keys
  have hs' := shares_scaled k hs
  have hid : sh.participantId < cfg.numParticipants := hg.id_lt
  have hwf : Spec.WellFormed cfg.degree cfg.numParticipants (Spec.scaled cfg sh k) := by
    refine ⟨rfl, rfl, hs'.encs_length, hs'.comms_length, fun i v hx => ?_⟩
    rw [get_scaled] at hx
    split at hx
    · rename_i hi; rw [hi]; exact hid
    · cases hx
  have hagg := (C25 m cfg.degree cfg.numParticipants (by omega) _ hwf).1
  have hku : (UInt64.ofNat k).toNat = k := by rw [UInt64.toNat_ofNat', Nat.mod_eq_of_lt (by omega)]
  obtain ⟨rng2, hv2⟩ := shareVerify_good S hS m
    { config := cfg, participants := ps, tx := Spec.scaled cfg sh k } rng' sh p hg hn hcap (Or.inl ht)
  obtain ⟨core, hcore⟩ : ∃ core, (Spec.scaled cfg sh k).core.aggregate sh.core = .ok core :=
    ⟨⟨_, _⟩, (coreAggregate_iff _ _ _).2 ⟨by rw [← List.length_pos_iff, hs'.comms_length]; omega,
      by rw [hs'.comms_length, hs.comms_length], by rw [hs'.encs_length, hs.encs_length],
      by rw [hs'.comms_length, hs'.encs_length], rfl, rfl⟩⟩
  obtain ⟨c, hc, -⟩ := aggregate_exists (m := m) (a := Spec.scaled cfg sh k)
    (b := AggShare.ofShare cfg.degree cfg.numParticipants sh) core
    (fun i => if i = sh.participantId then some (sh.signedProof, UInt64.ofNat k + 1) else none) rfl rfl hcore
    (fun i _ => by
      rw [get_scaled, get_ofShare]
      split
      · refine (mergeVal_some_ok_iff _ _ _ _ _ _).2 ⟨rfl, _, ?_, rfl⟩
        unfold addWeight
        split
        · rfl
        · cases m with
          | checked => exact absurd rfl hm
          | wrapping => rfl
          | wrappingIncl => rfl
      · rfl)
  refine ⟨{ config := cfg, participants := ps, tx := Spec.scaled cfg sh k }, { config := cfg, participants := ps, tx := c },
    (receiveAgg_ok_iff _ _ _ _ _ _).2 ⟨rng1, _, hv, hagg, rfl⟩,
    (receiveShare_ok_iff _ _ _ _ _ _).2 ⟨rng2, c, hv2, hc, rfl⟩, ?_⟩
  rintro peer rfl rfl m' rng3 rng4
  have hia : Spec.TxInv S peer.config peer.participants (Spec.scaled peer.config sh k) := by
    obtain ⟨h1, h2, rng5, h3, -, h5, h6, -⟩ := (aggregationVerify_iff S hS m _ rng rng1 _).1 hv
    have hle := ensureDegree_le h3
    refine ⟨rfl, rfl, h1, h2, fun i x w hx => ⟨hwf.ids i _ hx, h5 i x w hx⟩, ?_⟩
    exact (lagrangeSimple_iff m hle (show peer.config.degree + 1 ≤ r by omega)
      (show peer.config.degree + 1 < 2 ^ 64 by omega) _).1 h6
  have hib := txInv_share hS hv2 hn (show peer.config.numParticipants < 2 ^ 64 by omega)
  refine C34_broken S hS m peer hn (by omega) _ _ c hia hib hc sh.participantId sh.signedProof sh.signedProof
    (UInt64.ofNat k) 1 (by rw [get_scaled, if_pos rfl]) (by rw [get_ofShare, if_pos rfl]) ?_ ?_ hr hgs m' rng3 rng4
  · rw [hku, hk]; decide
  · intro j hj x w y w' hx
    rw [get_scaled, if_neg hj] at hx
    cases hx

/-! ### C63 -/

/-- The claim of C63: a party listed in an accepted transcript has contributed (its weight is not zero). -/
def C63_claim (S : Suite r G1 G2 K) (m : Mode) (a : Aggregator r G1 G2) : Prop :=
  ∀ rng rng' ag, a.aggregationVerify S m rng ag = .ok rng' →
    ∀ i x w, ag.contributions.get i = some (x, w) → w ≠ 0

/-- **C63** (proved part). Every listed contributor is registered and its signed proof is valid; and over all histories in which no
received transcript lists a contributor with weight zero, the aggregator's own transcript lists none. -/
theorem C63_partial (S : Suite r G1 G2 K) (hS : PairLaws S) (a : Aggregator r G1 G2) :
    (∀ m rng rng' ag, a.aggregationVerify S m rng ag = .ok rng' → ∀ i x w, ag.contributions.get i = some (x, w) →
      ∃ q, a.participants.get i = some q ∧ Spec.SignedOk S a.config.srs.g2 q.pkEd x) ∧
    (∀ ops : List (Op r G1 G2), (∀ rng ag, Op.agg rng ag ∈ ops → ∀ i x w, ag.contributions.get i = some (x, w) → w ≠ 0) →
      (∀ i x w, a.tx.contributions.get i = some (x, w) → w ≠ 0) →
      ∀ i x w, (a.run S .checked ops).tx.contributions.get i = some (x, w) → w ≠ 0) := by
  refine ⟨fun m rng rng' ag h => ((aggregationVerify_iff S hS m a rng rng' ag).1 h).2.2.choose_spec.2.2.1, ?_⟩
  have hmerge : ∀ a b c : AggShare r G1 G2, a.aggregate .checked b = .ok c →
      (∀ i x w, a.contributions.get i = some (x, w) → w ≠ 0) → (∀ i x w, b.contributions.get i = some (x, w) → w ≠ 0) →
      ∀ i x w, c.contributions.get i = some (x, w) → w ≠ 0 := by
    intro a b c h ha hb i x w hx
    have hi : i < a.numParticipants := by
      by_contra hi
      rw [((aggregate_iff _ _ _ _).1 h).2.2.2.2.2.2 i (by omega)] at hx
      cases hx
    rcases get_checked h hi hx with ⟨h1, -⟩ | ⟨-, h1⟩ | ⟨w1, y, w2, h1, -, h3⟩
    · exact ha i x w h1
    · exact hb i x w h1
    · have := ha i x w1 h1
      rintro rfl
      refine this (UInt64.toNat_inj.1 ?_)
      have h0 : (0 : UInt64).toNat = 0 := rfl
      omega
  intro ops
  induction ops generalizing a with
  | nil => exact fun _ h => h
  | cons op ops ih =>
    intro hops ha
    refine ih (a.step S .checked op).2 (fun rng ag hm => hops rng ag (List.mem_cons_of_mem _ hm)) ?_
    rcases step_ok_cases S .checked a op with h4 | ⟨rng, rng', sh, tx, rfl, -, h5, h6⟩ | ⟨rng, rng', ag, tx, rfl, -, h5, h6⟩
    · rw [h4]; exact ha
    · rw [h6]
      refine hmerge _ _ _ h5 ha fun i x w hx => ?_
      rw [get_ofShare] at hx
      split at hx
      · obtain ⟨rfl, rfl⟩ := Prod.mk.inj (Option.some.inj hx)
        decide
      · cases hx
    · rw [h6]
      exact hmerge _ _ _ h5 ha (hops rng ag (by simp))

/-- `ag` with one more contributor, of weight zero. -/
def Spec.addPhantom (ag : AggShare r G1 G2) (j : ℕ) (x : SignedProof r G2) : AggShare r G1 G2 :=
  { ag with contributions := ag.contributions.insert j (x, 0) }

/-- **C63** (phantom contributors). Any registered party with any valid signed proof (from whatever earlier run) can be added with weight
zero to an accepted transcript in which it does not occur; the result is accepted with the same randomness. -/
theorem C63_phantom (S : Suite r G1 G2 K) (hS : PairLaws S) (m : Mode) (a : Aggregator r G1 G2) (rng rng' : Rng r)
    (ag : AggShare r G1 G2) (h : a.aggregationVerify S m rng ag = .ok rng') (j : ℕ) (hj : ag.contributions.get j = none)
    (q : Participant G1) (hq : a.participants.get j = some q) (x : SignedProof r G2)
    (hx : Spec.SignedOk S a.config.srs.g2 q.pkEd x) :
    a.aggregationVerify S m rng (Spec.addPhantom ag j x) = .ok rng' := by
  rw [aggregationVerify_iff S hS] at h ⊢
  obtain ⟨h1, h2, rng1, h3, h4, h5, h6, h7⟩ := h
  refine ⟨h1, h2, rng1, h3, h4, fun i y w hy => ?_, ?_, h7⟩
  · simp only [Spec.addPhantom] at hy
    rw [BMap.get_insert] at hy
    split at hy
    · rename_i hi
      obtain ⟨rfl, rfl⟩ := Prod.mk.inj (Option.some.inj hy)
      subst hi
      exact ⟨q, hq, hx⟩
    · exact h5 i y w hy
  · have hb : ∃ n, (∀ i v, ag.contributions.get i = some v → i < n) ∧ j < n := by
      refine ⟨(ag.contributions.entries.map Prod.fst).sum + j + 1, fun i v hv => ?_, by omega⟩
      have := List.single_le_sum (l := ag.contributions.entries.map Prod.fst) (by simp) i
        (List.mem_map.2 ⟨_, (BMap.mem_entries _).2 hv, rfl⟩)
      omega
    obtain ⟨n, hn, hjn⟩ := hb
    have he : Spec.weightedGs (Spec.addPhantom ag j x).contributions = Spec.weightedGs ag.contributions := by
      rw [weightedGs_eq (n := n) ag.contributions hn, weightedGs_eq (n := n)]
      · refine sum_congr rfl fun i _ => ?_
        simp only [Spec.addPhantom]
        rw [BMap.get_insert]
        split
        · rename_i hi
          subst hi
          rw [hj]
          simp [entryGs]
        · rfl
      · intro i v hv
        simp only [Spec.addPhantom] at hv
        rw [BMap.get_insert] at hv
        split at hv
        · rename_i hi; subst hi; exact hjn
        · exact hn i v hv
    rw [he]
    exact h6

/-! ### Reachability of the situation of C35_poison -/

/-- An accepted transcript whose only contributor has an id `j` at or above `num_participants`. -/
theorem C35_reachable (S : Suite r G1 G2 K) (hS : PairLaws S) (m : Mode) (a : Aggregator r G1 G2) (sh : PVSSShare r G1 G2)
    (p : (ZMod r)[X]) (hg : Spec.GoodShare S a.config a.participants sh p) (j : ℕ) (q : Participant G1)
    (hq : a.participants.get j = some q) (hs : Spec.SignedOk S a.config.srs.g2 q.pkEd sh.signedProof)
    (hn : a.config.numParticipants ≤ r) (hcap : a.config.numParticipants < 2 ^ 58)
    (ht : a.config.degree + 2 ≤ a.config.numParticipants) (rng : Rng r) :
    ∃ rng', a.aggregationVerify S m rng ⟨a.config.numParticipants, a.config.degree, sh.core,
      BMap.ofList [(j, (sh.signedProof, 1))]⟩ = .ok rng' := by
  obtain ⟨pk, hkt, hsh⟩ := hg.keys
  refine aggregationVerify_good S hS m a rng _ p pk hkt hsh ?_ ?_ hn hcap (Or.inl ht)
  · show (([(j, (sh.signedProof, (1 : UInt64)))] : List _).map _).sum = _
    simp [hg.gs]
  · intro i x w hx
    rw [BMap.get_ofList] at hx
    have hx' : (if i = j then some (sh.signedProof, (1 : UInt64)) else none) = some (x, w) := hx
    split at hx'
    · rename_i hi
      obtain ⟨rfl, rfl⟩ := Prod.mk.inj (Option.some.inj hx')
      subst hi
      exact ⟨q, hq, hs⟩
    · cases hx'

theorem Toy.gs_ne : ∃ sh p, Spec.GoodShare (Toy.suite 13) Toy.cfg Toy.parties sh p ∧ sh.participantId = 2 ∧
    sh.core = Toy.core52 ∧ sh.signedProof.decompProof.gs ≠ 0 := by
  obtain ⟨sh, hcore, hid, ⟨p, hg⟩, h⟩ := Toy.accepted52
  refine ⟨sh, p, hg, hid, hcore, ?_⟩
  obtain ⟨pk, -, hs⟩ := hg.keys
  obtain ⟨b, a, rfl⟩ := exists_eq_X_add_C_of_natDegree_le_one (hs.degree : p.natDegree ≤ 1)
  have hl : sh.core.comms.length = 4 := by rw [hcore]; rfl
  have h0 := hs.comm 0 (by omega)
  have h1 := hs.comm 1 (by omega)
  rw [hg.gs]
  simp only [hcore, Toy.core52, List.getElem_cons_zero, List.getElem_cons_succ] at h0 h1
  simp only [eval_add, eval_mul, eval_C, eval_X, mul_zero, zero_add, Toy.cfg, smul_eq_mul, mul_one, Spec.point] at h0 h1 ⊢
  clear hs hg h
  revert a b
  decide

/-- Non-vacuity of C62_lockout, C62_wrap, C34_exact and C34_broken. -/
example (rng rng' : Rng 13) : ∃ sh a' b' b'', sh.core = Toy.core52 ∧
    Toy.agg.receiveAggregatedShare (Toy.suite 13) .checked rng (Spec.scaled Toy.cfg sh (2 ^ 64 - 1)) = (.ok (), a') ∧
    a'.receiveShare (Toy.suite 13) .checked rng' sh = (.panic, a') ∧
    Toy.agg.receiveAggregatedShare (Toy.suite 13) .wrapping rng (Spec.scaled Toy.cfg sh (2 ^ 64 - 1)) = (.ok (), b') ∧
    b'.receiveShare (Toy.suite 13) .wrapping rng' sh = (.ok (), b'') ∧
    ∀ rng1 rng2, Toy.agg.aggregationVerify (Toy.suite 13) .wrapping rng1 b''.tx ≠ .ok rng2 := by
  obtain ⟨sh, p, hg, -, hcore, hgs⟩ := Toy.gs_ne
  obtain ⟨a', h1, h2, -⟩ := C62_lockout (Toy.suite 13) (Toy.pairLaws 13) Toy.cfg Toy.parties sh p hg (by decide) (by decide)
    (by decide) rng
  obtain ⟨b', b'', h3, h4, h5⟩ := C62_wrap (Toy.suite 13) (Toy.pairLaws 13) .wrapping (by decide) Toy.cfg Toy.parties sh p hg
    (by decide) (by decide) (by decide) (by decide) hgs rng rng'
  exact ⟨sh, a', b', b'', hcore, h1, h2 rng', h3, h4, fun rng1 rng2 => h5 Toy.agg rfl rfl .wrapping rng1 rng2⟩

/-- **C62** is false. -/
theorem C62_false : ¬ C62_claim (Toy.suite 13) .checked Toy.cfg Toy.parties := by
  intro hc
  obtain ⟨sh, p, hg, -, -, -⟩ := Toy.gs_ne
  obtain ⟨a', h1, h2, -⟩ := C62_lockout (Toy.suite 13) (Toy.pairLaws 13) Toy.cfg Toy.parties sh p hg (by decide) (by decide)
    (by decide) Toy.rng52
  have hstep : (Aggregator.new Toy.cfg Toy.parties).step (Toy.suite 13) .checked
      (.agg Toy.rng52 (Spec.scaled Toy.cfg sh (2 ^ 64 - 1))) = (.ok (), a') := h1
  have := hc (.agg Toy.rng52 (Spec.scaled Toy.cfg sh (2 ^ 64 - 1))) sh p hg ?_ Toy.rng52
  · rw [hstep, h2] at this
    cases this
  · intro x w hx
    rw [hstep] at hx
    obtain ⟨rng1, tx, -, hagg, rfl⟩ := (receiveAgg_ok_iff _ _ _ _ _ _).1 h1
    have hid : sh.participantId < 4 := hg.id_lt
    rcases get_checked hagg (i := sh.participantId) hid hx with ⟨h3, -⟩ | ⟨-, h3⟩ | ⟨w1, y, w2, h3, -⟩
    · cases h3
    · rw [get_scaled, if_pos rfl] at h3
      obtain ⟨rfl, -⟩ := Prod.mk.inj (Option.some.inj h3)
      rfl
    · cases h3

/-- Non-vacuity of C62_partial: after one receipt of the honest share, it is received again. -/
example (rng rng' : Rng 13) : ∃ sh, sh.core = Toy.core52 ∧
    ((Toy.agg.run (Toy.suite 13) .checked [.share rng sh]).receiveShare (Toy.suite 13) .checked rng' sh).1 = .ok () := by
  obtain ⟨sh, p, hg, -, hcore, -⟩ := Toy.gs_ne
  refine ⟨sh, hcore, C62_partial (Toy.suite 13) (Toy.pairLaws 13) Toy.cfg Toy.parties Toy.ids_lt (by decide) (by decide) (by decide)
    _ sh p hg (fun x w hx => ?_) rng'⟩
  have hid : sh.participantId < 4 := hg.id_lt
  rcases step_ok_cases (Toy.suite 13) .checked Toy.agg (.share rng sh) with h4 | ⟨_, _, _, tx, he, -, h5, h6⟩ | ⟨_, _, _, _, he, -⟩
  · have h7 : (Toy.agg.step (Toy.suite 13) .checked (.share rng sh)).2.tx.contributions.get sh.participantId = some (x, w) := hx
    rw [h4] at h7
    cases h7
  · have h7 : (Toy.agg.step (Toy.suite 13) .checked (.share rng sh)).2.tx.contributions.get sh.participantId = some (x, w) := hx
    rw [h6] at h7
    cases he
    rcases get_checked h5 (i := sh.participantId) hid h7 with ⟨h3, -⟩ | ⟨-, h3⟩ | ⟨w1, y, w2, h3, -⟩
    · cases h3
    · rw [get_ofShare, if_pos rfl] at h3
      obtain ⟨rfl, rfl⟩ := Prod.mk.inj (Option.some.inj h3)
      exact ⟨rfl, by decide⟩
    · cases h3
  · cases he

/-- The table of the concrete case with one more id, 4, registered under the signature key of party 2. -/
def Toy.parties5 : BMap (Participant (ZMod 13)) := Toy.parties.insert 4 ⟨4, 6, ⟨Toy.pad32 [2]⟩⟩

/-- Non-vacuity of C35_reachable and C35_poison: all hypotheses of C35_poison hold in a concrete run. -/
example (rng : Rng 13) : ∃ ag a',
    (Aggregator.new Toy.cfg Toy.parties5).receiveAggregatedShare (Toy.suite 13) .checked rng ag = (.ok (), a') ∧
    ag.core = Toy.core52 ∧ (∀ i v, ag.contributions.get i = some v → 4 ≤ i) ∧ Spec.weightedGs ag.contributions ≠ 0 ∧
    ∀ rng1 rng2, (Aggregator.new Toy.cfg Toy.parties5).aggregationVerify (Toy.suite 13) .checked rng1 a'.tx ≠ .ok rng2 := by
  obtain ⟨sh, p, hg, hid, hcore, hgs⟩ := Toy.gs_ne
  obtain ⟨q, hq, hs⟩ := hg.signed
  obtain ⟨pk, hkt, hsh⟩ := hg.keys
  rw [hid] at hq
  have hqe : q.pkEd = ⟨Toy.pad32 [2]⟩ := by
    have h2 : Toy.parties.get 2 = some (Toy.participant 2 (Toy.sk 2)) := rfl
    rw [h2] at hq
    rw [← Option.some.inj hq]
    rfl
  have hne : ∀ i < 4, Toy.parties5.get i = Toy.parties.get i := by
    intro i hi
    rw [Toy.parties5, BMap.get_insert, if_neg (by omega)]
  have hg5 : Spec.GoodShare (Toy.suite 13) Toy.cfg Toy.parties5 sh p :=
    ⟨hg.id_lt, ⟨pk, fun i hi => by rw [hne i hi]; exact hkt i hi, hsh⟩, hg.gs, q, by rw [hid, hne 2 (by decide)]; exact hq, hs⟩
  have h4 : Toy.parties5.get 4 = some ⟨4, 6, ⟨Toy.pad32 [2]⟩⟩ := by rw [Toy.parties5, BMap.get_insert, if_pos rfl]
  obtain ⟨rng', hv⟩ := C35_reachable (Toy.suite 13) (Toy.pairLaws 13) .checked (Aggregator.new Toy.cfg Toy.parties5) sh p hg5 4 _ h4
    (by rw [hqe] at hs; exact hs) (by decide) (by decide) (by decide) rng
  have hids : ∀ i v, (BMap.ofList [(4, (sh.signedProof, (1 : UInt64)))]).get i = some v → 4 ≤ i := by
    intro i v hv
    rw [BMap.get_ofList] at hv
    have hx' : (if i = 4 then some (sh.signedProof, (1 : UInt64)) else none) = some v := hv
    split at hx'
    · omega
    · cases hx'
  have hw : Spec.weightedGs (BMap.ofList [(4, (sh.signedProof, (1 : UInt64)))]) ≠ 0 := by
    have : Spec.weightedGs (BMap.ofList [(4, (sh.signedProof, (1 : UInt64)))]) = sh.signedProof.decompProof.gs := by
      show (([(4, (sh.signedProof, (1 : UInt64)))] : List _).map _).sum = _
      simp
    rw [this]
    exact hgs
  obtain ⟨core, hc⟩ : ∃ core, (AggShare.empty (r := 13) 1 4).core.aggregate sh.core = .ok core :=
    ⟨⟨_, _⟩, (coreAggregate_iff _ _ _).2 ⟨by simp [AggShare.empty, PVSSCore.empty], by rw [hcore]; rfl, by rw [hcore]; rfl,
      rfl, rfl, rfl⟩⟩
  obtain ⟨tx, htx, -⟩ := aggregate_exists (m := .checked) (a := AggShare.empty 1 4)
    (b := ⟨4, 1, sh.core, BMap.ofList [(4, (sh.signedProof, 1))]⟩) core (fun _ => none) rfl rfl hc (fun i hi => by
      have hn : (BMap.ofList [(4, (sh.signedProof, (1 : UInt64)))]).get i = none := by
        cases h : (BMap.ofList [(4, (sh.signedProof, (1 : UInt64)))]).get i with
        | none => rfl
        | some v => have := hids i v h; have : i < 4 := hi; omega
      show mergeVal .checked none ((BMap.ofList [(4, (sh.signedProof, (1 : UInt64)))]).get i) = _
      rw [hn]
      rfl)
  have hrec := (receiveAgg_ok_iff (Toy.suite 13) .checked (Aggregator.new Toy.cfg Toy.parties5) _ rng _).2
    ⟨rng', tx, hv, htx, rfl⟩
  exact ⟨_, _, hrec, hcore, hids, hw, fun rng1 rng2 => C35_poison (Toy.suite 13) (Toy.pairLaws 13) .checked _ _ (by decide)
    (by decide) (txInv_empty _ _ _) rng _ hrec hids hw _ rfl .checked rng1 rng2⟩

/-- **C63** is false: party 2 is listed with weight zero in an accepted transcript (of which the core is the identity). -/
theorem C63_false : ¬ C63_claim (Toy.suite 13) .checked Toy.agg := by
  intro hc
  obtain ⟨sh, p, hg, hid, -, -⟩ := Toy.gs_ne
  obtain ⟨q, hq, hs⟩ := hg.signed
  obtain ⟨rng', h⟩ := C62_accept (Toy.suite 13) (Toy.pairLaws 13) .checked Toy.agg sh p hg 0 (by decide) (by decide) (by decide)
    (by decide) Toy.rng52
  exact hc _ _ _ h sh.participantId sh.signedProof 0 (by rw [get_scaled, if_pos rfl]; rfl) rfl

/-- Non-vacuity of C63_phantom: the empty transcript is accepted, then lists party 2. -/
example (rng : Rng 13) : ∃ x rng', Toy.agg.aggregationVerify (Toy.suite 13) .checked rng
    (Spec.addPhantom (AggShare.empty 1 4) 2 x) = .ok rng' := by
  obtain ⟨sh, p, hg, hid, -, -⟩ := Toy.gs_ne
  obtain ⟨q, hq, hs⟩ := hg.signed
  rw [hid] at hq
  obtain ⟨rng', h⟩ := C32 (Toy.suite 13) (Toy.pairLaws 13) .checked Toy.agg _ _ .empty Toy.registered (by decide) (by decide)
    (Or.inl (by decide)) rng
  exact ⟨sh.signedProof, rng', C63_phantom (Toy.suite 13) (Toy.pairLaws 13) .checked Toy.agg rng rng' _ h 2 rfl q hq _ hs⟩

end Verif
