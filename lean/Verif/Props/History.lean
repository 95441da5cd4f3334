import Verif.Lemmas.History

/-!
# Histories of an aggregator: C11, C28, C31, C32, C33 (and consequences of C34, C35)
-/

open Finset Polynomial

set_option linter.unusedSectionVars false

namespace Verif

variable {r : ℕ} [Fact r.Prime] {G1 G2 K : Type}
  [AddCommGroup G1] [DecidableEq G1] [AddCommGroup G2] [DecidableEq G2] [CommMonoid K] [DecidableEq K]
  [Module (ZMod r) G1] [Module (ZMod r) G2]

/-! ### honest material -/

/-- Transcripts built from correct shares by aggregation, in any order and multiplicity and without weight overflow; `l` lists
the shares (with their polynomials) that went in. -/
inductive Spec.HonestTx (S : Suite r G1 G2 K) (cfg : Config G1 G2) (ps : BMap (Participant G1)) :
    AggShare r G1 G2 → List (PVSSShare r G1 G2 × (ZMod r)[X]) → Prop
  | empty : Spec.HonestTx S cfg ps (AggShare.empty cfg.degree cfg.numParticipants) []
  | share {sh p} : Spec.GoodShare S cfg ps sh p →
      Spec.HonestTx S cfg ps (AggShare.ofShare cfg.degree cfg.numParticipants sh) [(sh, p)]
  | merge {a b c l l'} : Spec.HonestTx S cfg ps a l → Spec.HonestTx S cfg ps b l' → a.aggregate .checked b = .ok c →
      Spec.HonestTx S cfg ps c (l ++ l')

/-- The sum of the polynomials that went into a transcript. -/
noncomputable def Spec.totalPoly (l : List (PVSSShare r G1 G2 × (ZMod r)[X])) : (ZMod r)[X] := (l.map (·.2)).sum

theorem ofShare_wellFormed {t n : ℕ} {s : PVSSShare r G1 G2} (h : Spec.WellFormedShare n s) :
    Spec.WellFormed t n (AggShare.ofShare t n s) := by
  refine ⟨rfl, rfl, h.encs_length, h.comms_length, fun i v hv => ?_⟩
  rw [get_ofShare] at hv
  split at hv
  · rename_i hi; rw [hi]; exact h.id_lt
  · cases hv

theorem honest_good {S : Suite r G1 G2 K} {cfg : Config G1 G2} {ps : BMap (Participant G1)} {a : AggShare r G1 G2}
    {l : List (PVSSShare r G1 G2 × (ZMod r)[X])} (h : Spec.HonestTx S cfg ps a l) :
    ∀ e ∈ l, Spec.GoodShare S cfg ps e.1 e.2 := by
  induction h with
  | empty => simp
  | share hg =>
    intro e he
    simp only [List.mem_singleton] at he
    subst he
    exact hg
  | merge _ _ _ ih1 ih2 =>
    intro e he
    rcases List.mem_append.1 he with he | he
    · exact ih1 e he
    · exact ih2 e he

theorem honest_wellFormed {S : Suite r G1 G2 K} {cfg : Config G1 G2} {ps : BMap (Participant G1)} {a : AggShare r G1 G2}
    {l : List (PVSSShare r G1 G2 × (ZMod r)[X])} (h : Spec.HonestTx S cfg ps a l) :
    Spec.WellFormed cfg.degree cfg.numParticipants a := by
  induction h with
  | empty => exact empty_wellFormed _ _
  | share hg =>
    obtain ⟨pk, -, hs⟩ := hg.keys
    exact ofShare_wellFormed ⟨hs.encs_length, hs.comms_length, hg.id_lt⟩
  | merge _ _ hc ih1 ih2 =>
    have := aggregate_wellFormed hc (by rw [ih1.encs_length, ih1.num]) (by rw [ih1.comms_length, ih1.num])
    rwa [ih1.degree, ih1.num] at this

theorem honest_shares {S : Suite r G1 G2 K} {cfg : Config G1 G2} {ps : BMap (Participant G1)} {a : AggShare r G1 G2}
    {l : List (PVSSShare r G1 G2 × (ZMod r)[X])} (h : Spec.HonestTx S cfg ps a l) {pk : ℕ → G1}
    (hk : Spec.KeyTable ps cfg.numParticipants pk) :
    Spec.Shares cfg.srs.g2 cfg.numParticipants cfg.degree pk a.core (Spec.totalPoly l) := by
  induction h with
  | empty => exact shares_empty _ _ _ _
  | share hg =>
    obtain ⟨pk', hk', hs⟩ := hg.keys
    simpa [Spec.totalPoly, AggShare.ofShare] using shares_congr hs (keyTable_unique hk' hk)
  | merge _ _ hc ih1 ih2 =>
    have := shares_add ih1 ih2 ((aggregate_iff _ _ _ _).1 hc).2.2.2.2.1
    simpa [Spec.totalPoly] using this

theorem weightedGs_empty (t n : ℕ) : Spec.weightedGs (AggShare.empty t n : AggShare r G1 G2).contributions = 0 := rfl

theorem honest_weightedGs {S : Suite r G1 G2 K} {cfg : Config G1 G2} {ps : BMap (Participant G1)} {a : AggShare r G1 G2}
    {l : List (PVSSShare r G1 G2 × (ZMod r)[X])} (h : Spec.HonestTx S cfg ps a l) :
    Spec.weightedGs a.contributions = (Spec.totalPoly l).eval 0 • cfg.srs.g2 := by
  induction h with
  | empty => simp [weightedGs_empty, Spec.totalPoly]
  | share hg => rw [weightedGs_ofShare, hg.gs]; simp [Spec.totalPoly]
  | merge ha hb hc ih1 ih2 =>
    have w1 := honest_wellFormed ha
    have w2 := honest_wellFormed hb
    rw [weightedGs_add hc (fun i v hv => by rw [w1.num]; exact w1.ids i v hv)
      (fun i v hv => by rw [w1.num]; exact w2.ids i v hv)
      (fun i x w y w' hx hy => C34_checked _ _ _ hc i (by rw [w1.num]; exact w1.ids i _ hx) x y w w' hx hy), ih1, ih2]
    simp [Spec.totalPoly, add_smul]

theorem honest_contribs {S : Suite r G1 G2 K} {cfg : Config G1 G2} {ps : BMap (Participant G1)} {a : AggShare r G1 G2}
    {l : List (PVSSShare r G1 G2 × (ZMod r)[X])} (h : Spec.HonestTx S cfg ps a l) :
    (∀ i x w, a.contributions.get i = some (x, w) → (∃ e ∈ l, e.1.participantId = i ∧ e.1.signedProof = x) ∧
      w.toNat = l.countP fun e => e.1.participantId = i) ∧
    ∀ e ∈ l, a.contributions.get e.1.participantId ≠ none := by
  induction h with
  | empty =>
    refine ⟨fun i x w h => ?_, by simp⟩
    cases h
  | @share sh p hg =>
    refine ⟨fun i x w h => ?_, fun e he => ?_⟩
    · rw [get_ofShare] at h
      split at h
      · rename_i hi
        obtain ⟨rfl, rfl⟩ := Prod.mk.inj (Option.some.inj h)
        exact ⟨⟨(sh, p), by simp, hi.symm, rfl⟩, by simp [hi]⟩
      · cases h
    · simp only [List.mem_singleton] at he
      subst he
      rw [get_ofShare, if_pos rfl]
      simp
  | merge ha hb hc ih1 ih2 =>
    have w1 := honest_wellFormed ha
    have w2 := honest_wellFormed hb
    rename_i a b c l l'
    have hnum := ((aggregate_iff _ _ _ _).1 hc).2.2.2.1
    have hcw := aggregate_wellFormed hc (by rw [w1.encs_length, w1.num]) (by rw [w1.comms_length, w1.num])
    have hz : ∀ (l : List (PVSSShare r G1 G2 × (ZMod r)[X])) (t : AggShare r G1 G2) (i : ℕ),
        (∀ e ∈ l, t.contributions.get e.1.participantId ≠ none) → t.contributions.get i = none →
        l.countP (fun e => decide (e.1.participantId = i)) = 0 := by
      intro l t i h1 h2
      rw [List.countP_eq_zero]
      intro e he hi
      exact h1 e he (by rw [of_decide_eq_true hi]; exact h2)
    refine ⟨fun i x w h => ?_, fun e he => ?_⟩
    · rw [List.countP_append]
      rcases get_checked hc (hcw.ids i _ h) h with ⟨h1, h2⟩ | ⟨h1, h2⟩ | ⟨w1', y, w2', h1, h2, h3⟩
      · obtain ⟨⟨e, he, k1, k2⟩, k3⟩ := ih1.1 i x w h1
        exact ⟨⟨e, by simp [he], k1, k2⟩, by rw [hz l' b i ih2.2 h2, k3]; rfl⟩
      · obtain ⟨⟨e, he, k1, k2⟩, k3⟩ := ih2.1 i x w h2
        exact ⟨⟨e, by simp [he], k1, k2⟩, by rw [hz l a i ih1.2 h1, k3, Nat.zero_add]⟩
      · obtain ⟨⟨e, he, k1, k2⟩, k3⟩ := ih1.1 i x w1' h1
        obtain ⟨-, k3'⟩ := ih2.1 i y w2' h2
        exact ⟨⟨e, by simp [he], k1, k2⟩, by rw [h3, k3, k3']⟩
    · have hid : e.1.participantId < a.numParticipants := by
        rw [w1.num]
        rcases List.mem_append.1 he with he | he
        · exact (honest_good ha e he).id_lt
        · exact (honest_good hb e he).id_lt
      apply get_ne_none hc hid
      rcases List.mem_append.1 he with he | he
      · exact Or.inl (ih1.2 e he)
      · exact Or.inr (ih2.2 e he)

/-! ### C11 -/

/-- **C11**. From every transcript built from honest shares, every admissible selection of parties reconstructs `P(0) • g1` (and its
pairing with any epoch generator), where `P` is the sum of the polynomials of all shares that went in, `P(0) • g2` is the
weighted sum of the published `gs` values and the weight of a dealer is the number of its shares. -/
theorem C11 (S : Suite r G1 G2 K) (hS : PairLaws S) (m : Mode) (cfg : Config G1 G2) (ps : BMap (Participant G1))
    (tx : AggShare r G1 G2) (l : List (PVSSShare r G1 G2 × (ZMod r)[X])) (h : Spec.HonestTx S cfg ps tx l)
    (pk : ℕ → G1) (hk : Spec.KeyTable ps cfg.numParticipants pk) (hn : cfg.numParticipants ≤ r)
    (sk : ℕ → ZMod r) (ids : List ℕ) (hsel : Spec.Selection cfg.numParticipants cfg.degree ids)
    (hsk : ∀ i ∈ ids, sk i ≠ 0 ∧ pk i = sk i • cfg.srs.g1) (ds : List (DecryptedShare G1))
    (hd : Spec.Decrypted tx.core.encs sk ids ds) :
    lagrangeG1 m (ds.map (·.dec)) (ds.map fun d => Spec.point r d.origin) cfg.degree =
      .ok ((Spec.totalPoly l).eval 0 • cfg.srs.g1) ∧
    (∀ epoch, lagrangeGt (r := r) m (ds.map fun d => S.pair d.dec epoch) (ds.map fun d => d.origin + 1) cfg.degree =
      .ok (S.pair ((Spec.totalPoly l).eval 0 • cfg.srs.g1) epoch)) ∧
    Spec.weightedGs tx.contributions = (Spec.totalPoly l).eval 0 • cfg.srs.g2 ∧
    (∀ i x w, tx.contributions.get i = some (x, w) → w.toNat = l.countP fun e => e.1.participantId = i) ∧
    (∀ i, tx.contributions.get i ≠ none ↔ ∃ e ∈ l, e.1.participantId = i) := by
  have hs := honest_shares h hk
  obtain ⟨h1, h2⟩ := honest_contribs h
  refine ⟨reconstruct_g1 m hs hn hsel hsk hd, reconstruct_gt m S hS hs hn hsel hsk hd, honest_weightedGs h,
    fun i x w hx => (h1 i x w hx).2, fun i => ⟨fun hi => ?_, ?_⟩⟩
  · cases hg : tx.contributions.get i with
    | none => exact absurd hg hi
    | some v =>
      obtain ⟨⟨e, he, k, -⟩, -⟩ := h1 i v.1 v.2 hg
      exact ⟨e, he, k⟩
  · rintro ⟨e, he, rfl⟩
    exact h2 e he

/-! ### C32 -/

/-- **C32**. Every transcript built from honest material is accepted by every aggregator of the same configuration and
participants, with every random stream. -/
theorem C32 (S : Suite r G1 G2 K) (hS : PairLaws S) (m : Mode) (peer : Aggregator r G1 G2) (tx : AggShare r G1 G2)
    (l : List (PVSSShare r G1 G2 × (ZMod r)[X])) (h : Spec.HonestTx S peer.config peer.participants tx l)
    (hreg : ∀ i < peer.config.numParticipants, peer.participants.get i ≠ none)
    (hn : peer.config.numParticipants ≤ r) (hcap : peer.config.numParticipants < 2 ^ 58)
    (ht : peer.config.degree + 2 ≤ peer.config.numParticipants ∨
      (m = .wrapping ∧ peer.config.degree + 1 = peer.config.numParticipants)) (rng : Rng r) :
    ∃ rng', peer.aggregationVerify S m rng tx = .ok rng' := by
  have hk : Spec.KeyTable peer.participants peer.config.numParticipants
      (fun i => match peer.participants.get i with | some q => q.pkSig | none => 0) := by
    intro i hi
    cases hg : peer.participants.get i with
    | none => exact absurd hg (hreg i hi)
    | some q => exact ⟨q, rfl, by simp [hg]⟩
  refine aggregationVerify_good S hS m peer rng tx _ _ hk (honest_shares h hk) (honest_weightedGs h) ?_ hn hcap ht
  intro i x w hx
  obtain ⟨⟨e, he, rfl, rfl⟩, -⟩ := (honest_contribs h).1 i x w hx
  exact (honest_good h e he).signed

/-- A call with honest material. -/
def Spec.HonestOp (S : Suite r G1 G2 K) (cfg : Config G1 G2) (ps : BMap (Participant G1)) : Op r G1 G2 → Prop
  | .share _ sh => ∃ p, Spec.GoodShare S cfg ps sh p
  | .agg _ ag => ∃ l, Spec.HonestTx S cfg ps ag l

theorem honest_run (S : Suite r G1 G2 K) (a : Aggregator r G1 G2)
    (ops : List (Op r G1 G2)) (ho : ∀ op ∈ ops, Spec.HonestOp S a.config a.participants op)
    (h : ∃ l, Spec.HonestTx S a.config a.participants a.tx l) :
    ∃ l, Spec.HonestTx S a.config a.participants (a.run S .checked ops).tx l := by
  induction ops generalizing a with
  | nil => exact h
  | cons op ops ih =>
    obtain ⟨l, h⟩ := h
    have h3 : a.run S .checked (op :: ops) = (a.step S .checked op).2.run S .checked ops := rfl
    obtain ⟨-, hc, hp⟩ := C19 S .checked a op
    rw [h3]
    have := ih (a.step S .checked op).2 (fun op' hop => by rw [hc, hp]; exact ho op' (by simp [hop])) ?_
    · rwa [hc, hp] at this
    rw [hc, hp]
    have hop := ho op (by simp)
    have hw := honest_wellFormed h
    rcases step_ok_cases S .checked a op with h4 | ⟨rng, rng', sh, tx, rfl, -, h5, h6⟩ | ⟨rng, rng', ag, tx, rfl, -, h5, h6⟩
    · rw [h4]; exact ⟨l, h⟩
    · obtain ⟨p, hg⟩ := hop
      rw [h6]
      refine ⟨_, .merge h (.share hg) ?_⟩
      unfold AggShare.aggregatePvssShare at h5
      rwa [hw.degree, hw.num] at h5
    · obtain ⟨l', hg⟩ := hop
      rw [h6]
      exact ⟨_, .merge h hg h5⟩

/-- **C32** (histories). An aggregator that starts empty and receives any sequence of honest shares and of transcripts of other
such aggregators always holds a transcript that all its peers accept. -/
theorem C32_run (S : Suite r G1 G2 K) (hS : PairLaws S) (m : Mode) (cfg : Config G1 G2) (ps : BMap (Participant G1))
    (ops : List (Op r G1 G2)) (ho : ∀ op ∈ ops, Spec.HonestOp S cfg ps op)
    (hreg : ∀ i < cfg.numParticipants, ps.get i ≠ none) (hn : cfg.numParticipants ≤ r)
    (hcap : cfg.numParticipants < 2 ^ 58) (ht : cfg.degree + 2 ≤ cfg.numParticipants)
    (peer : Aggregator r G1 G2) (hpc : peer.config = cfg) (hpp : peer.participants = ps) (rng : Rng r) :
    (∃ l, Spec.HonestTx S cfg ps ((Aggregator.new cfg ps).run S .checked ops).tx l) ∧
    ∃ rng', peer.aggregationVerify S m rng ((Aggregator.new cfg ps).run S .checked ops).tx = .ok rng' := by
  obtain ⟨l, h⟩ := honest_run S (Aggregator.new cfg ps) ops ho ⟨[], .empty⟩
  refine ⟨⟨l, h⟩, C32 S hS m peer _ l ?_ ?_ ?_ ?_ ?_ rng⟩
  · rw [hpc, hpp]; exact h
  · rw [hpc, hpp]; exact hreg
  · rw [hpc]; exact hn
  · rw [hpc]; exact hcap
  · rw [hpc]; exact Or.inl ht

/-- **C32** (nodes). The shares made by correctly set-up nodes are honest material. -/
theorem C32_node (S : Suite r G1 G2 K) (hE : EdLaws S.ed) (m : Mode) (nd : Node r G1 G2) (hd : Spec.GoodDealer S.ed nd)
    (rng rng' rng2 : Rng r) (sh : PVSSShare r G1 G2) (h : nd.share S m rng = .ok (sh, rng')) :
    Spec.HonestOp S nd.aggregator.config nd.aggregator.participants (.share rng2 sh) :=
  (share_good S hE m nd hd rng rng' sh h).2

/-! ### C28 -/

/-- **C28**. Receiving one correct share once per element of `rs` (with arbitrary random streams): every entry of the core grows by
that many multiples of the share's, the weight of its dealer by that number, `gs` and everything else stays. -/
theorem C28 (S : Suite r G1 G2 K) (hS : PairLaws S) (m : Mode) (a : Aggregator r G1 G2) (sh : PVSSShare r G1 G2)
    (p : (ZMod r)[X]) (hg : Spec.GoodShare S a.config a.participants sh p)
    (hwf : Spec.WellFormed a.config.degree a.config.numParticipants a.tx) (rs : List (Rng r))
    (hroom : ∀ x w, a.tx.contributions.get sh.participantId = some (x, w) →
      x.decompProof.gs = sh.signedProof.decompProof.gs ∧ w.toNat + rs.length < 2 ^ 64)
    (h64 : rs.length < 2 ^ 64) (hn : a.config.numParticipants ≤ r) (hcap : a.config.numParticipants < 2 ^ 58)
    (ht : a.config.degree + 2 ≤ a.config.numParticipants) :
    let tx' := (a.run S m (rs.map fun rng => .share rng sh)).tx
    Spec.WellFormed a.config.degree a.config.numParticipants tx' ∧
    (∀ (i : ℕ) (x y : G1), a.tx.core.encs[i]? = some x → sh.core.encs[i]? = some y →
      tx'.core.encs[i]? = some (x + rs.length • y)) ∧
    (∀ (i : ℕ) (x y : G2), a.tx.core.comms[i]? = some x → sh.core.comms[i]? = some y →
      tx'.core.comms[i]? = some (x + rs.length • y)) ∧
    (∀ i, i ≠ sh.participantId → tx'.contributions.get i = a.tx.contributions.get i) ∧
    (rs ≠ [] → ∃ x w, tx'.contributions.get sh.participantId = some (x, w) ∧
      x.decompProof.gs = sh.signedProof.decompProof.gs ∧
      w.toNat = ((a.tx.contributions.get sh.participantId).elim 0 fun v => v.2.toNat) + rs.length) ∧
    (∀ l, Spec.HonestTx S a.config a.participants a.tx l →
      Spec.HonestTx S a.config a.participants tx' (l ++ List.replicate rs.length (sh, p))) := by
  induction rs generalizing a with
  | nil =>
    refine ⟨hwf, fun i x y hx _ => by simpa [Aggregator.run] using hx, fun i x y hx _ => by simpa [Aggregator.run] using hx,
      fun i _ => rfl, fun h => absurd rfl h, fun l hl => by simpa [Aggregator.run] using hl⟩
  | cons rng rs ih =>
    obtain ⟨pk, hk, hs⟩ := hg.keys
    -- the first receipt
    obtain ⟨rng', hv⟩ := shareVerify_good S hS m a rng sh p hg hn hcap (Or.inl ht)
    obtain ⟨tx1, hagg⟩ := aggregatePvssShare_ok m a.config a.tx sh
      ⟨hwf.degree, hwf.num, hwf.encs_length, hwf.comms_length, fun x w hx => by
        have := hroom x w hx
        simp only [List.length_cons] at this
        exact ⟨this.1, by omega⟩⟩ (by omega) hs.encs_length hs.comms_length
    have hstep : a.step S m (.share rng sh) = (.ok (), { a with tx := tx1 }) :=
      (receiveShare_ok_iff S m a { a with tx := tx1 } rng sh).2 ⟨rng', tx1, hv, hagg, rfl⟩
    have hrun : a.run S m ((rng :: rs).map fun rng => .share rng sh) =
        ({ a with tx := tx1 } : Aggregator r G1 G2).run S m (rs.map fun rng => .share rng sh) := by
      show ((a.step S m (.share rng sh)).2).run S m _ = _
      rw [hstep]
    have hagg' := hagg
    unfold AggShare.aggregatePvssShare at hagg'
    have hwf1 := aggregate_wellFormed hagg' (by rw [hwf.encs_length, hwf.num]) (by rw [hwf.comms_length, hwf.num])
    rw [hwf.degree, hwf.num] at hwf1
    obtain ⟨-, -, -, -, hcore, hpt, hpt'⟩ := (aggregate_iff _ _ _ _).1 hagg'
    have hid : sh.participantId < a.tx.numParticipants := by rw [hwf.num]; exact hg.id_lt
    have hidget : ∃ x w, tx1.contributions.get sh.participantId = some (x, w) ∧
        x.decompProof.gs = sh.signedProof.decompProof.gs ∧
        w.toNat = ((a.tx.contributions.get sh.participantId).elim 0 fun v => v.2.toNat) + 1 := by
      have h0 := hpt _ hid
      rw [get_ofShare, if_pos rfl] at h0
      cases hx : a.tx.contributions.get sh.participantId with
      | none =>
        rw [hx, mergeVal_none_left] at h0
        exact ⟨_, _, (Res.ok.inj h0).symm, rfl, rfl⟩
      | some v =>
        obtain ⟨x, w⟩ := v
        rw [hx, mergeVal_some_ok_iff] at h0
        obtain ⟨k1, w'', k2, k3⟩ := h0
        have := hroom x w hx
        simp only [List.length_cons] at this
        refine ⟨_, _, k3, k1, ?_⟩
        rw [addWeight_ok_eq k2]
        simp only [Option.elim_some]
        rw [toNat_add_of_lt (by simp only [UInt64.toNat_one]; omega), UInt64.toNat_one]
    have hother : ∀ i, i ≠ sh.participantId → tx1.contributions.get i = a.tx.contributions.get i := by
      intro i hi
      by_cases hlt : i < a.tx.numParticipants
      · have h0 := hpt i hlt
        rw [get_ofShare, if_neg hi, mergeVal_none_right] at h0
        exact (Res.ok.inj h0).symm
      · rw [hpt' i (by omega)]
        cases hx : a.tx.contributions.get i with
        | none => rfl
        | some v => have := hwf.ids i v hx; rw [hwf.num] at hlt; omega
    simp only [List.length_cons] at h64 hroom
    obtain ⟨i1, i2, i3, i4, i5, i6⟩ := ih { a with tx := tx1 } hg hwf1 (fun x w hx => by
      obtain ⟨x', w', k1, k2, k3⟩ := hidget
      simp only at hx
      rw [k1] at hx
      obtain ⟨rfl, rfl⟩ := Prod.mk.inj (Option.some.inj hx)
      refine ⟨k2, ?_⟩
      rw [k3]
      cases hy : a.tx.contributions.get sh.participantId with
      | none => simp only [Option.elim_none]; omega
      | some v =>
        have := (hroom v.1 v.2 hy).2
        simp only [Option.elim_some]
        omega) (by omega) hn hcap ht
    intro tx'
    have htx : tx' = (({ a with tx := tx1 } : Aggregator r G1 G2).run S m (rs.map fun rng => .share rng sh)).tx := by
      simp only [tx']
      rw [hrun]
    rw [htx]
    obtain ⟨q1, -, q3, q4, q5, q6⟩ := (C22 _ _).1 _ |>.1 hcore
    refine ⟨i1, fun i x y hx hy => ?_, fun i x y hx hy => ?_, fun i hi => ?_, fun _ => ?_, fun l hl => ?_⟩
    · rw [i2 i (x + y) y (q5.2.2 i x y hx hy) hy, List.length_cons, succ_nsmul', add_assoc]
    · rw [i3 i (x + y) y (q6.2.2 i x y hx hy) hy, List.length_cons, succ_nsmul', add_assoc]
    · rw [i4 i hi]
      exact hother i hi
    · obtain ⟨x1, w1, k1, k2, k3⟩ := hidget
      by_cases hrs : rs = []
      · subst hrs
        exact ⟨x1, w1, k1, k2, by rw [k3]; rfl⟩
      · obtain ⟨x, w, j1, j2, j3⟩ := i5 hrs
        refine ⟨x, w, j1, j2, ?_⟩
        rw [j3]
        simp only
        rw [k1, Option.elim_some, k3, List.length_cons]
        omega
    · have hm : Spec.HonestTx S a.config a.participants tx1 (l ++ [(sh, p)]) := by
        refine .merge hl (.share hg) ?_
        rw [hwf.degree, hwf.num] at hagg'
        refine aggregate_to_checked hagg' fun i x w y w' hx hy => ?_
        rw [get_ofShare] at hy
        split at hy
        · rename_i hi
          subst hi
          obtain ⟨rfl, rfl⟩ := Prod.mk.inj (Option.some.inj hy)
          have := (hroom x w hx).2
          simp only [UInt64.toNat_one]
          omega
        · cases hy
      have := i6 _ hm
      rw [List.append_assoc] at this
      rw [List.length_cons, List.replicate_succ]
      exact this

/-- **C28** (fresh aggregator). `k ≥ 1` receipts give `k` times the share with weight `k`, and every peer accepts the transcript. -/
theorem C28_fresh (S : Suite r G1 G2 K) (hS : PairLaws S) (m m' : Mode) (cfg : Config G1 G2) (ps : BMap (Participant G1))
    (sh : PVSSShare r G1 G2) (p : (ZMod r)[X]) (hg : Spec.GoodShare S cfg ps sh p) (rs : List (Rng r)) (hne : rs ≠ [])
    (h64 : rs.length < 2 ^ 64) (hn : cfg.numParticipants ≤ r) (hcap : cfg.numParticipants < 2 ^ 58)
    (ht : cfg.degree + 2 ≤ cfg.numParticipants) :
    let tx' := ((Aggregator.new cfg ps).run S m (rs.map fun rng => .share rng sh)).tx
    tx'.core.encs = sh.core.encs.map (rs.length • ·) ∧ tx'.core.comms = sh.core.comms.map (rs.length • ·) ∧
    (∃ x w, tx'.contributions.get sh.participantId = some (x, w) ∧
      x.decompProof.gs = sh.signedProof.decompProof.gs ∧ w.toNat = rs.length) ∧
    (∀ i, i ≠ sh.participantId → tx'.contributions.get i = none) ∧
    ∀ rng, ∃ rng', (Aggregator.new cfg ps).aggregationVerify S m' rng tx' = .ok rng' := by
  obtain ⟨pk, hk, hs⟩ := hg.keys
  obtain ⟨i1, i2, i3, i4, i5, i6⟩ := C28 S hS m (Aggregator.new cfg ps) sh p hg (empty_wellFormed _ _) rs
    (fun x w hx => by cases hx) h64 hn hcap ht
  have hle : sh.core.encs.length = cfg.numParticipants := hs.encs_length
  have hlc : sh.core.comms.length = cfg.numParticipants := hs.comms_length
  intro tx'
  refine ⟨?_, ?_, ?_, fun i hi => i4 i hi, fun rng => ?_⟩
  · have h1 : tx'.core.encs.length = cfg.numParticipants := i1.encs_length
    apply List.ext_getElem (by simp [h1, hle])
    intro i hi hi'
    have h2 : i < sh.core.encs.length := by simpa using hi'
    have := i2 i 0 _ (by
      have : i < cfg.numParticipants := by omega
      simp [Aggregator.new, AggShare.empty, PVSSCore.empty, this]) (List.getElem?_eq_getElem h2)
    rw [List.getElem?_eq_getElem hi] at this
    simpa using this
  · have h1 : tx'.core.comms.length = cfg.numParticipants := i1.comms_length
    apply List.ext_getElem (by simp [h1, hlc])
    intro i hi hi'
    have h2 : i < sh.core.comms.length := by simpa using hi'
    have := i3 i 0 _ (by
      have : i < cfg.numParticipants := by omega
      simp [Aggregator.new, AggShare.empty, PVSSCore.empty, this]) (List.getElem?_eq_getElem h2)
    rw [List.getElem?_eq_getElem hi] at this
    simpa using this
  · obtain ⟨x, w, j1, j2, j3⟩ := i5 hne
    exact ⟨x, w, j1, j2, by rw [j3]; exact Nat.zero_add _⟩
  · refine C32 S hS m' (Aggregator.new cfg ps) _ _ (i6 [] .empty) (fun i hi => ?_) hn hcap (Or.inl ht) rng
    obtain ⟨q, hq, -⟩ := hk i hi
    show ps.get i ≠ none
    rw [hq]
    simp

/-! ### C31 -/

/-- The transcript invariant. -/
structure Spec.TxInv (S : Suite r G1 G2 K) (cfg : Config G1 G2) (ps : BMap (Participant G1)) (tx : AggShare r G1 G2) :
    Prop where
  degree : tx.degree = cfg.degree
  num : tx.numParticipants = cfg.numParticipants
  encs_length : tx.core.encs.length = cfg.numParticipants
  comms_length : tx.core.comms.length = cfg.numParticipants
  contribs : ∀ i x w, tx.contributions.get i = some (x, w) →
    i < cfg.numParticipants ∧ ∃ q, ps.get i = some q ∧ Spec.SignedOk S cfg.srs.g2 q.pkEd x
  interp : Spec.InterpolatesTo r cfg.degree tx.core.comms (Spec.weightedGs tx.contributions)

theorem txInv_merge {S : Suite r G1 G2 K} {cfg : Config G1 G2} {ps : BMap (Participant G1)} {a b c : AggShare r G1 G2}
    (ha : Spec.TxInv S cfg ps a) (hb : Spec.TxInv S cfg ps b) (h : a.aggregate .checked b = .ok c) :
    Spec.TxInv S cfg ps c := by
  have hw := aggregate_wellFormed h (by rw [ha.encs_length, ha.num]) (by rw [ha.comms_length, ha.num])
  rw [ha.degree, ha.num] at hw
  refine ⟨hw.degree, hw.num, hw.encs_length, hw.comms_length, fun i x w hx => ?_, ?_⟩
  · have hi := hw.ids i _ hx
    rcases get_checked h (by rw [ha.num]; exact hi) hx with ⟨h1, -⟩ | ⟨-, h1⟩ | ⟨w1, y, w2, h1, -, -⟩
    · exact ha.contribs i x w h1
    · exact hb.contribs i x w h1
    · exact ha.contribs i x w1 h1
  · rw [weightedGs_add h (fun i v hv => by rw [ha.num]; exact (ha.contribs i v.1 v.2 hv).1)
      (fun i v hv => by rw [ha.num]; exact (hb.contribs i v.1 v.2 hv).1)
      (fun i x w y w' hx hy => C34_checked _ _ _ h i (by rw [ha.num]; exact (ha.contribs i x w hx).1) x y w w' hx hy)]
    obtain ⟨-, -, -, -, hcore, -, -⟩ := (aggregate_iff _ _ _ _).1 h
    obtain ⟨-, h2, -, -, -, h6⟩ := (coreAggregate_iff _ _ _).1 hcore
    rw [h6]
    exact interpolatesTo_add h2 ha.interp hb.interp

/-- What an accepted share contributes. -/
theorem txInv_share {S : Suite r G1 G2 K} (hS : PairLaws S) {m : Mode} {a : Aggregator r G1 G2} {rng rng' : Rng r}
    {sh : PVSSShare r G1 G2} (h : a.shareVerify S m rng sh = .ok rng') (hn : a.config.numParticipants ≤ r)
    (h64 : a.config.numParticipants < 2 ^ 64) :
    Spec.TxInv S a.config a.participants (AggShare.ofShare a.config.degree a.config.numParticipants sh) := by
  obtain ⟨q, h1, h2, h3, h4, h5, h6, -, h8⟩ := (shareVerify_iff S hS m a rng rng' sh).1 h
  have hle := ensureDegree_le h5
  refine ⟨rfl, rfl, h3, h4, fun i x w hx => ?_, ?_⟩
  · rw [get_ofShare] at hx
    split at hx
    · rename_i hi
      obtain ⟨rfl, rfl⟩ := Prod.mk.inj (Option.some.inj hx)
      subst hi
      exact ⟨h2, q, h1, h8⟩
    · cases hx
  · rw [weightedGs_ofShare]
    exact (lagrangeSimple_iff m hle (by omega) (by omega) _).1 h6

/-- What an accepted transcript contributes. -/
theorem txInv_agg {S : Suite r G1 G2 K} (hS : PairLaws S) {m : Mode} {a : Aggregator r G1 G2} {rng rng' : Rng r}
    {ag : AggShare r G1 G2} (h : a.aggregationVerify S m rng ag = .ok rng') (hn : a.config.numParticipants ≤ r)
    (h64 : a.config.numParticipants < 2 ^ 64) (hd : ag.degree = a.config.degree)
    (hnum : ag.numParticipants = a.config.numParticipants)
    (hids : ∀ i q, a.participants.get i = some q → i < a.config.numParticipants) :
    Spec.TxInv S a.config a.participants ag := by
  obtain ⟨h1, h2, rng1, h3, -, h5, h6, -⟩ := (aggregationVerify_iff S hS m a rng rng' ag).1 h
  have hle := ensureDegree_le h3
  refine ⟨hd, hnum, h1, h2, fun i x w hx => ?_, (lagrangeSimple_iff m hle (by omega) (by omega) _).1 h6⟩
  obtain ⟨q, hq, hs⟩ := h5 i x w hx
  exact ⟨hids i q hq, q, hq, hs⟩

theorem txInv_empty (S : Suite r G1 G2 K) (cfg : Config G1 G2) (ps : BMap (Participant G1)) :
    Spec.TxInv S cfg ps (AggShare.empty cfg.degree cfg.numParticipants) := by
  refine ⟨rfl, rfl, by simp [AggShare.empty, PVSSCore.empty], by simp [AggShare.empty, PVSSCore.empty],
    fun i x w hx => ?_, fun _ => 0, fun j hj _ => ?_, rfl⟩
  · cases hx
  · simp [AggShare.empty, PVSSCore.empty]

theorem txInv_step {S : Suite r G1 G2 K} (hS : PairLaws S) {a : Aggregator r G1 G2} (op : Op r G1 G2)
    (hids : ∀ i q, a.participants.get i = some q → i < a.config.numParticipants)
    (hn : a.config.numParticipants ≤ r) (h64 : a.config.numParticipants < 2 ^ 64)
    (h : Spec.TxInv S a.config a.participants a.tx) :
    Spec.TxInv S a.config a.participants (a.step S .checked op).2.tx := by
  rcases step_ok_cases S .checked a op with h4 | ⟨rng, rng', sh, tx, rfl, h3, h5, h6⟩ | ⟨rng, rng', ag, tx, rfl, h3, h5, h6⟩
  · rw [h4]; exact h
  · rw [h6]
    unfold AggShare.aggregatePvssShare at h5
    rw [h.degree, h.num] at h5
    exact txInv_merge h (txInv_share hS h3 hn h64) h5
  · rw [h6]
    obtain ⟨k1, k2, -⟩ := (aggregate_iff _ _ _ _).1 h5
    exact txInv_merge h (txInv_agg hS h3 hn h64 (by rw [← k1, h.degree]) (by rw [← k2, h.num]) hids) h5

/-- **C31**. Over all sequences of calls with arbitrary inputs the aggregator's transcript has its own configuration and vector lengths,
only registered contributors below `n` with valid signed proofs, and commitments that interpolate to the weighted `gs` sum. -/
theorem C31 (S : Suite r G1 G2 K) (hS : PairLaws S) (cfg : Config G1 G2) (ps : BMap (Participant G1))
    (hids : ∀ i q, ps.get i = some q → i < cfg.numParticipants) (hn : cfg.numParticipants ≤ r)
    (h64 : cfg.numParticipants < 2 ^ 64) (ops : List (Op r G1 G2)) :
    Spec.TxInv S cfg ps ((Aggregator.new cfg ps).run S .checked ops).tx := by
  suffices h : ∀ a : Aggregator r G1 G2, a.config = cfg → a.participants = ps → Spec.TxInv S cfg ps a.tx →
      Spec.TxInv S cfg ps (a.run S .checked ops).tx from h _ rfl rfl (txInv_empty S cfg ps)
  induction ops with
  | nil => exact fun a _ _ h => h
  | cons op ops ih =>
    intro a hc hp h
    obtain ⟨-, k1, k2⟩ := C19 S .checked a op
    refine ih (a.step S .checked op).2 (by rw [k1, hc]) (by rw [k2, hp]) ?_
    subst hc hp
    exact txInv_step hS op hids hn h64 h

/-! ### C33 -/

/-- The claim of C33 (in a weak form): after any sequence of calls, the transcript is accepted by a peer for at least one random
stream with non-zero pairing scalar. -/
def C33_claim (S : Suite r G1 G2 K) (m : Mode) (cfg : Config G1 G2) (ps : BMap (Participant G1)) : Prop :=
  ∀ ops : List (Op r G1 G2), ∃ rng rng' : Rng r, rng (cfg.numParticipants - cfg.degree - 1) ≠ 0 ∧
    (Aggregator.new cfg ps).aggregationVerify S m rng ((Aggregator.new cfg ps).run S m ops).tx = .ok rng'

/-- **C33** (what decides acceptance). For every history of arbitrary inputs, a peer accepts the transcript exactly if the degree test
and the batched pairing equation hold for its random draw; all other checks pass by C31. -/
theorem C33_decides (S : Suite r G1 G2 K) (hS : PairLaws S) (cfg : Config G1 G2) (ps : BMap (Participant G1))
    (hids : ∀ i q, ps.get i = some q → i < cfg.numParticipants) (hn : cfg.numParticipants ≤ r)
    (hcap : cfg.numParticipants < 2 ^ 58) (ht : cfg.degree + 2 ≤ cfg.numParticipants) (ops : List (Op r G1 G2))
    (peer : Aggregator r G1 G2) (hpc : peer.config = cfg) (hpp : peer.participants = ps) (m : Mode) (rng : Rng r) :
    let tx := ((Aggregator.new cfg ps).run S .checked ops).tx
    (∃ rng', peer.aggregationVerify S m rng tx = .ok rng') ↔
      Spec.DegreeTest cfg.degree tx.core.comms rng ∧
      ∃ pk, Spec.KeyTable ps cfg.numParticipants pk ∧
        Spec.BatchEq S cfg.srs.g2 pk tx.core (rng (cfg.numParticipants - cfg.degree - 1)) := by
  intro tx
  have hinv : Spec.TxInv S cfg ps tx := C31 S hS cfg ps hids hn (by omega) ops
  subst hpc hpp
  have hl := hinv.comms_length
  constructor
  · rintro ⟨rng', h⟩
    obtain ⟨-, -, rng1, h3, h4, -⟩ := (aggregationVerify_iff S hS m peer rng rng' tx).1 h
    rw [ensureDegree_iff m rng rng1 _ (by omega) (by omega) (by omega), hl] at h3
    obtain ⟨h3, rfl⟩ := h3
    exact ⟨h3, by simpa [Rng.drop] using h4⟩
  · rintro ⟨h1, h2⟩
    refine ⟨_, (aggregationVerify_iff S hS m peer rng _ tx).2 ⟨hinv.encs_length, hl, _,
      (ensureDegree_iff m rng _ _ (by omega) (by omega) (by omega)).2 ⟨h1, rfl⟩, ?_,
      fun i x w hx => (hinv.contribs i x w hx).2, ?_, rfl⟩⟩
    · rw [hl]; simpa [Rng.drop] using h2
    · exact (lagrangeSimple_iff m (by omega) (by omega) (by omega) _).2 hinv.interp

/-- Refusal by a peer, from the failure of the batched equation. -/
theorem refused_of_batch {S : Suite r G1 G2 K} (hS : PairLaws S) {m : Mode} {peer : Aggregator r G1 G2} {tx : AggShare r G1 G2}
    {pk : ℕ → G1} (hk : Spec.KeyTable peer.participants peer.config.numParticipants pk)
    (hn : peer.config.numParticipants ≤ r) (hcap : peer.config.numParticipants < 2 ^ 58)
    (ht : peer.config.degree + 2 ≤ peer.config.numParticipants) {rng : Rng r}
    (h : ¬ Spec.BatchEq S peer.config.srs.g2 pk tx.core (rng (peer.config.numParticipants - peer.config.degree - 1)))
    (rng' : Rng r) : peer.aggregationVerify S m rng tx ≠ .ok rng' := by
  intro hv
  obtain ⟨-, h2, rng1, h3, ⟨pk', hk', hb⟩, -⟩ := (aggregationVerify_iff S hS m peer rng rng' tx).1 hv
  rw [ensureDegree_iff m rng rng1 _ (by omega) (by omega) (by omega), h2] at h3
  obtain ⟨-, rfl⟩ := h3
  apply h
  have : ∀ i < tx.core.comms.length, pk' i = pk i := by
    rw [h2]
    exact keyTable_unique hk' hk
  have hb := (batchEq_congr this).1 hb
  simpa [Rng.drop] using hb

/-- **C33** (poisoning). An accepted share that fails the batched equation makes an honest transcript fail it, and no further
honest shares or transcripts repair it: every peer refuses, whenever it draws that scalar. -/
theorem C33_poison (S : Suite r G1 G2 K) (hS : PairLaws S) (a : Aggregator r G1 G2)
    (pk : ℕ → G1) (hk : Spec.KeyTable a.participants a.config.numParticipants pk)
    (hn : a.config.numParticipants ≤ r) (hcap : a.config.numParticipants < 2 ^ 58)
    (ht : a.config.degree + 2 ≤ a.config.numParticipants)
    (l : List (PVSSShare r G1 G2 × (ZMod r)[X])) (hl : Spec.HonestTx S a.config a.participants a.tx l)
    (rng : Rng r) (sh : PVSSShare r G1 G2) (a' : Aggregator r G1 G2)
    (hrec : a.receiveShare S .checked rng sh = (.ok (), a'))
    (ρ : ZMod r) (hbad : ¬ Spec.BatchEq S a.config.srs.g2 pk sh.core ρ)
    (ops : List (Op r G1 G2)) (ho : ∀ op ∈ ops, Spec.HonestOp S a.config a.participants op)
    (peer : Aggregator r G1 G2) (hpc : peer.config = a.config) (hpp : peer.participants = a.participants) (m : Mode)
    (rng1 rng2 : Rng r) (hρ : rng1 (a.config.numParticipants - a.config.degree - 1) = ρ) :
    peer.aggregationVerify S m rng1 (a'.run S .checked ops).tx ≠ .ok rng2 := by
  obtain ⟨rng', tx, -, hagg, rfl⟩ := (receiveShare_ok_iff S .checked a a' rng sh).1 hrec
  have hbad1 : ¬ Spec.BatchEq S a.config.srs.g2 pk tx.core ρ := by
    obtain ⟨-, -, -, -, hcore, -, -⟩ := (aggregate_iff _ _ _ _).1 hagg
    rw [batchEq_add_iff hS hcore (batchEq_of_shares S hS (honest_shares hl hk) ρ)]
    exact hbad
  -- honest operations keep the failure
  have key : ∀ b : Aggregator r G1 G2, b.config = a.config → b.participants = a.participants →
      ¬ Spec.BatchEq S a.config.srs.g2 pk b.tx.core ρ → ¬ Spec.BatchEq S a.config.srs.g2 pk (b.run S .checked ops).tx.core ρ := by
    clear hrec hagg
    induction ops with
    | nil => exact fun b _ _ h => h
    | cons op ops ih =>
      intro b hc hp hb
      obtain ⟨-, k1, k2⟩ := C19 S .checked b op
      refine ih (fun op' hop => ho op' (by simp [hop])) (b.step S .checked op).2 (by rw [k1, hc]) (by rw [k2, hp]) ?_
      have hop := ho op (by simp)
      rcases step_ok_cases S .checked b op with h4 | ⟨_, _, s, tx', rfl, -, h5, h6⟩ | ⟨_, _, ag, tx', rfl, -, h5, h6⟩
      · rw [h4]; exact hb
      · obtain ⟨p, hg⟩ := hop
        obtain ⟨pk', hk', hs⟩ := hg.keys
        rw [h6]
        obtain ⟨-, -, -, -, hcore, -, -⟩ := (aggregate_iff _ _ _ _).1 h5
        have hb' := batchEq_of_shares S hS (shares_congr hs (keyTable_unique hk' hk)) ρ
        simp only
        rw [batchEq_add_iff hS (coreAggregate_comm hcore) hb']
        exact hb
      · obtain ⟨l', hg⟩ := hop
        rw [h6]
        obtain ⟨-, -, -, -, hcore, -, -⟩ := (aggregate_iff _ _ _ _).1 h5
        have hb' := batchEq_of_shares S hS (honest_shares hg hk) ρ
        simp only
        rw [batchEq_add_iff hS (coreAggregate_comm hcore) hb']
        exact hb
  have hfin := key { a with tx := tx } rfl rfl hbad1
  refine refused_of_batch hS (pk := pk) (by rw [hpc, hpp]; exact hk) (by rw [hpc]; exact hn) (by rw [hpc]; exact hcap)
    (by rw [hpc]; exact ht) ?_ rng2
  rw [hpc, hρ]
  exact hfin

/-- Content that is really correct: codeword commitments and correct encryptions for all parties. -/
structure Spec.CorrectCore (S : Suite r G1 G2 K) (cfg : Config G1 G2) (ps : BMap (Participant G1)) (core : PVSSCore G1 G2) :
    Prop where
  codeword : Spec.Codeword r cfg.degree core.comms
  encs : Spec.AllEncOk S cfg.srs.g2 ps cfg.numParticipants core

/-- The material of a call has correct content (nothing is assumed about proofs, signatures, ids, weights). -/
def Spec.CorrectOp (S : Suite r G1 G2 K) (cfg : Config G1 G2) (ps : BMap (Participant G1)) : Op r G1 G2 → Prop
  | .share _ sh => Spec.CorrectCore S cfg ps sh.core
  | .agg _ ag => Spec.CorrectCore S cfg ps ag.core

theorem correct_add {S : Suite r G1 G2 K} (hS : PairLaws S) {cfg : Config G1 G2} {ps : BMap (Participant G1)}
    {a b c : PVSSCore G1 G2} (ha : Spec.CorrectCore S cfg ps a) (hb : Spec.CorrectCore S cfg ps b)
    (h : a.aggregate b = .ok c) : Spec.CorrectCore S cfg ps c := by
  obtain ⟨h1, h2, h3, h4, h5, h6⟩ := (coreAggregate_iff _ _ _).1 h
  refine ⟨by rw [h6]; exact codeword_add h2 ha.codeword hb.codeword, fun i hi => ?_⟩
  obtain ⟨q, hq, e1⟩ := ha.encs i hi
  obtain ⟨q', hq', e2⟩ := hb.encs i hi
  rw [hq] at hq'
  obtain rfl := Option.some.inj hq'
  exact ⟨q, hq, encOk_add hS h e1 e2⟩

/-- **C33** (proved part): for all histories in which whatever was received has correct content, the transcript passes verification at
every peer with every random stream. Missing for the full claim: an accepted share or transcript need not have correct
content (C16, C21), and then `C33_poison` applies. -/
theorem C33_partial (S : Suite r G1 G2 K) (hS : PairLaws S) (cfg : Config G1 G2) (ps : BMap (Participant G1))
    (hids : ∀ i q, ps.get i = some q → i < cfg.numParticipants)
    (hreg : ∀ i < cfg.numParticipants, ps.get i ≠ none) (hn : cfg.numParticipants ≤ r)
    (hcap : cfg.numParticipants < 2 ^ 58) (ht : cfg.degree + 2 ≤ cfg.numParticipants) (ops : List (Op r G1 G2))
    (ho : ∀ op ∈ ops, Spec.CorrectOp S cfg ps op)
    (peer : Aggregator r G1 G2) (hpc : peer.config = cfg) (hpp : peer.participants = ps) (m : Mode) (rng : Rng r) :
    ∃ rng', peer.aggregationVerify S m rng ((Aggregator.new cfg ps).run S .checked ops).tx = .ok rng' := by
  have hcorr : ∀ a : Aggregator r G1 G2, a.config = cfg → a.participants = ps → Spec.CorrectCore S cfg ps a.tx.core →
      Spec.CorrectCore S cfg ps (a.run S .checked ops).tx.core := by
    induction ops with
    | nil => exact fun a _ _ h => h
    | cons op ops ih =>
      intro a hc hp h
      obtain ⟨-, k1, k2⟩ := C19 S .checked a op
      refine ih (fun op' hop => ho op' (by simp [hop])) (a.step S .checked op).2 (by rw [k1, hc]) (by rw [k2, hp]) ?_
      have hop := ho op (by simp)
      rcases step_ok_cases S .checked a op with h4 | ⟨_, _, s, tx', rfl, -, h5, h6⟩ | ⟨_, _, ag, tx', rfl, -, h5, h6⟩
      · rw [h4]; exact h
      · rw [h6]
        obtain ⟨-, -, -, -, hcore, -, -⟩ := (aggregate_iff _ _ _ _).1 h5
        exact correct_add hS h hop hcore
      · rw [h6]
        obtain ⟨-, -, -, -, hcore, -, -⟩ := (aggregate_iff _ _ _ _).1 h5
        exact correct_add hS h hop hcore
  have hc := hcorr (Aggregator.new cfg ps) rfl rfl (by
    refine ⟨⟨fun _ => 0, fun i hi => by simp [Aggregator.new, AggShare.empty, PVSSCore.empty]⟩, fun i hi => ?_⟩
    cases hg : ps.get i with
    | none => exact absurd hg (hreg i hi)
    | some q =>
      refine ⟨q, rfl, 0, 0, ?_, ?_, by rw [hS.zero_left, hS.zero_right]⟩
      · simp [Aggregator.new, AggShare.empty, PVSSCore.empty, hi]
      · simp [Aggregator.new, AggShare.empty, PVSSCore.empty, hi])
  have hinv := C31 S hS cfg ps hids hn (by omega) ops
  refine (C33_decides S hS cfg ps hids hn hcap ht ops peer hpc hpp m rng).2 ⟨?_, ?_⟩
  · exact degreeTest_codeword (by rw [hinv.comms_length]; exact ht) (by rw [hinv.comms_length]; exact hn) hc.codeword _
  · refine ⟨fun i => match ps.get i with | some q => q.pkSig | none => 0, fun i hi => ?_, ?_⟩
    · obtain ⟨q, hq, -⟩ := hc.encs i hi
      exact ⟨q, hq, by simp [hq]⟩
    · refine batchEq_of_encOk hS hinv.encs_length hinv.comms_length (fun i hi => ?_) _
      obtain ⟨q, hq, he⟩ := hc.encs i hi
      simpa [hq] using he

/-! ### consequences of C34 and C35 for peers -/

/-- Refusal by a peer, from the failure of the interpolation check. -/
theorem refused_of_interp {S : Suite r G1 G2 K} (hS : PairLaws S) {m : Mode} {peer : Aggregator r G1 G2} {tx : AggShare r G1 G2}
    (hn : peer.config.numParticipants ≤ r) (h64 : peer.config.numParticipants < 2 ^ 64) {P : G2}
    (hP : Spec.InterpolatesTo r peer.config.degree tx.core.comms P) (hne : P ≠ Spec.weightedGs tx.contributions)
    (rng rng' : Rng r) : peer.aggregationVerify S m rng tx ≠ .ok rng' := by
  intro hv
  obtain ⟨-, h2, rng1, h3, -, -, h6, -⟩ := (aggregationVerify_iff S hS m peer rng rng' tx).1 hv
  have hle := ensureDegree_le h3
  exact hne (interpolatesTo_unique hle (by omega) hP ((lagrangeSimple_iff m hle (by omega) (by omega) _).1 h6))

/-- **C34** (exact). After merging two transcripts that match their cores, the result matches its core exactly if the multiples
`2^64 • gs` lost by the overflowed weights add up to zero; if they do not, every peer refuses the result, for every random stream. -/
theorem C34_exact (S : Suite r G1 G2 K) (hS : PairLaws S) (m : Mode) (peer : Aggregator r G1 G2)
    (hn : peer.config.numParticipants ≤ r) (h64 : peer.config.numParticipants < 2 ^ 64)
    (ht : peer.config.degree + 1 ≤ peer.config.numParticipants)
    (a b c : AggShare r G1 G2) (ha : Spec.TxInv S peer.config peer.participants a)
    (hb : Spec.TxInv S peer.config peer.participants b) (h : a.aggregate m b = .ok c) :
    (Spec.InterpolatesTo r peer.config.degree c.core.comms (Spec.weightedGs c.contributions) ↔
      ∑ i ∈ range peer.config.numParticipants, lostGs (a.contributions.get i) (b.contributions.get i) = 0) ∧
    (∑ i ∈ range peer.config.numParticipants, lostGs (a.contributions.get i) (b.contributions.get i) ≠ 0 →
      ∀ m' rng rng', peer.aggregationVerify S m' rng c ≠ .ok rng') := by
  have hlost := C34_lost m a b c h (fun i v hv => by rw [ha.num]; exact (ha.contribs i v.1 v.2 hv).1)
    (fun i v hv => by rw [ha.num]; exact (hb.contribs i v.1 v.2 hv).1)
  rw [ha.num] at hlost
  obtain ⟨-, -, -, -, hcore, -, -⟩ := (aggregate_iff _ _ _ _).1 h
  obtain ⟨-, h2, -, -, -, h6⟩ := (coreAggregate_iff _ _ _).1 hcore
  have hP := interpolatesTo_add h2 ha.interp hb.interp
  rw [← h6] at hP
  have hl : c.core.comms.length = peer.config.numParticipants := by
    rw [h6, List.length_map, List.length_zip, ha.comms_length, hb.comms_length, min_self]
  refine ⟨⟨fun hi => ?_, fun h0 => ?_⟩, fun hne m' rng rng' => refused_of_interp hS hn h64 hP ?_ rng rng'⟩
  · have := interpolatesTo_unique (by omega) (by omega) hP hi
    rw [← hlost] at this
    exact add_eq_left.1 this
  · rw [h0, add_zero] at hlost
    rw [hlost]
    exact hP
  · rw [← hlost]
    intro h0
    exact hne (add_eq_left.1 h0)

/-- **C34** (peers). If in a build without overflow checks exactly one contributor's weights overflow (and its `gs` is not zero), the
aggregated transcript no longer matches its core: every peer refuses it, for every random stream. -/
theorem C34_broken (S : Suite r G1 G2 K) (hS : PairLaws S) (m : Mode) (peer : Aggregator r G1 G2)
    (hn : peer.config.numParticipants ≤ r) (h64 : peer.config.numParticipants < 2 ^ 64)
    (a b c : AggShare r G1 G2) (ha : Spec.TxInv S peer.config peer.participants a)
    (hb : Spec.TxInv S peer.config peer.participants b) (h : a.aggregate m b = .ok c)
    (i : ℕ) (x y : SignedProof r G2) (w w' : UInt64) (hx : a.contributions.get i = some (x, w))
    (hy : b.contributions.get i = some (y, w')) (hov : 2 ^ 64 ≤ w.toNat + w'.toNat)
    (honly : ∀ j, j ≠ i → ∀ x w y w', a.contributions.get j = some (x, w) → b.contributions.get j = some (y, w') →
      w.toNat + w'.toNat < 2 ^ 64)
    (hr : ((2 ^ 64 : ℕ) : ZMod r) ≠ 0) (hgs : x.decompProof.gs ≠ 0) (m' : Mode) (rng rng' : Rng r) :
    peer.aggregationVerify S m' rng c ≠ .ok rng' := by
  have hlost := C34_lost m a b c h (fun i v hv => by rw [ha.num]; exact (ha.contribs i v.1 v.2 hv).1)
    (fun i v hv => by rw [ha.num]; exact (hb.contribs i v.1 v.2 hv).1)
  have hi : i < a.numParticipants := by rw [ha.num]; exact (ha.contribs i x w hx).1
  rw [sum_eq_single_of_mem i (by simpa using hi)] at hlost
  · obtain ⟨-, -, -, -, hcore, -, -⟩ := (aggregate_iff _ _ _ _).1 h
    obtain ⟨-, h2, -, -, -, h6⟩ := (coreAggregate_iff _ _ _).1 hcore
    have hP := interpolatesTo_add h2 ha.interp hb.interp
    rw [← h6] at hP
    refine refused_of_interp hS hn h64 hP ?_ rng rng'
    rw [← hlost]
    intro h0
    have h1 := add_eq_left.1 h0
    rw [hx, hy] at h1
    simp only [lostGs, if_pos hov] at h1
    rcases smul_eq_zero.1 h1 with h1 | h1
    · exact hr h1
    · exact hgs h1
  · intro j hj hji
    unfold lostGs
    split
    · rename_i x' w1 y' w2 hx' hy'
      rw [if_neg (by have := honly j hji _ _ _ _ hx' hy'; omega)]
    · rfl

/-- **C35** (peers). If a peer's table registers ids at or above `num_participants`, an accepted transcript whose contributors are all
such ids leaves its receiver with a transcript that every peer refuses, for every random stream. -/
theorem C35_poison (S : Suite r G1 G2 K) (hS : PairLaws S) (m : Mode) (a a' : Aggregator r G1 G2)
    (hn : a.config.numParticipants ≤ r) (h64 : a.config.numParticipants < 2 ^ 64)
    (htx : Spec.TxInv S a.config a.participants a.tx) (rng : Rng r) (ag : AggShare r G1 G2)
    (hrec : a.receiveAggregatedShare S m rng ag = (.ok (), a'))
    (hids : ∀ i v, ag.contributions.get i = some v → a.config.numParticipants ≤ i)
    (hne : Spec.weightedGs ag.contributions ≠ 0)
    (peer : Aggregator r G1 G2) (hpc : peer.config = a.config) (m' : Mode) (rng1 rng2 : Rng r) :
    peer.aggregationVerify S m' rng1 a'.tx ≠ .ok rng2 := by
  obtain ⟨rng', tx, hv, hagg, rfl⟩ := (receiveAgg_ok_iff S m a a' rng ag).1 hrec
  obtain ⟨-, -, rng3, h3, -, -, h6, -⟩ := (aggregationVerify_iff S hS m a rng rng' ag).1 hv
  have hle := ensureDegree_le h3
  obtain ⟨h1, h2, rng4, -⟩ := (aggregationVerify_iff S hS m a rng rng' ag).1 hv
  have hag := (lagrangeSimple_iff m hle (by omega) (by omega) _).1 h6
  obtain ⟨-, -, -, -, hcore, hpt, hpt'⟩ := (aggregate_iff _ _ _ _).1 hagg
  obtain ⟨-, k2, -, -, -, k6⟩ := (coreAggregate_iff _ _ _).1 hcore
  have hP := interpolatesTo_add k2 htx.interp hag
  rw [← k6] at hP
  have hcon : tx.contributions = a.tx.contributions := by
    refine BMap.ext fun i => ?_
    by_cases hi : i < a.tx.numParticipants
    · have h0 := hpt i hi
      have : ag.contributions.get i = none := by
        cases hg : ag.contributions.get i with
        | none => rfl
        | some v => have := hids i v hg; rw [htx.num] at hi; omega
      rw [this, mergeVal_none_right] at h0
      exact (Res.ok.inj h0).symm
    · rw [hpt' i (by omega)]
      cases hg : a.tx.contributions.get i with
      | none => rfl
      | some v => have := (htx.contribs i v.1 v.2 hg).1; rw [htx.num] at hi; omega
  refine refused_of_interp hS (by rw [hpc]; exact hn) (by rw [hpc]; exact h64) (by rw [hpc]; exact hP) ?_ rng1 rng2
  simp only
  rw [hcon]
  intro h0
  exact hne (add_eq_left.1 h0)

/-! ### concrete cases -/

namespace Toy

theorem keyTable : Spec.KeyTable parties 4 fun i => sk i := by
  intro i hi
  match i, hi with
  | 0, _ => exact ⟨_, rfl, rfl⟩
  | 1, _ => exact ⟨_, rfl, rfl⟩
  | 2, _ => exact ⟨_, rfl, rfl⟩
  | 3, _ => exact ⟨_, rfl, rfl⟩

theorem registered : ∀ i < 4, parties.get i ≠ none := by decide

theorem ids_lt : ∀ i q, parties.get i = some q → i < 4 := by
  intro i q h
  by_contra hi
  have hk : i ∉ parties.entries.map (·.1) := by
    have : parties.entries.map (·.1) = [0, 1, 2, 3] := by decide
    rw [this]
    simp
    omega
  have h' : BMap.lookupL i parties.entries = some q := h
  rw [lookupL_none_of_notMem hk] at h'
  cases h'

/-- The forged share: the share of party 2 with a wrong encryption for party 0, received by a fresh aggregator. -/
theorem forged (rng : Rng 13) : ∃ sh a', sh.core = ⟨[3, 27, 44, 65], [7, 9, 11, 13]⟩ ∧
    agg.receiveShare (suite 13) .checked rng sh = (.ok (), a') := by
  obtain ⟨sh, hcore, hid, -, h⟩ := accepted52
  obtain ⟨rng', h⟩ := h rng
  have h1 := (C16_forge (suite 13) (pairLaws 13) .checked agg rng rng' sh h 0 (by rw [hid]; decide) (by decide) 3).1
  obtain ⟨tx, h2⟩ := aggregatePvssShare_ok .checked agg.config agg.tx
    { sh with core := { sh.core with encs := sh.core.encs.set 0 3 } }
    ⟨rfl, rfl, rfl, rfl, fun x w hx => by cases hx⟩ (by decide) (by rw [hcore]; rfl) (by rw [hcore]; rfl)
  exact ⟨_, { agg with tx := tx }, by rw [hcore]; rfl,
    (receiveShare_ok_iff _ _ _ _ _ _).2 ⟨rng', tx, h1, h2, rfl⟩⟩

end Toy

/-- **C33** is false. -/
theorem C33_false : ¬ C33_claim (Toy.suite 13) .checked Toy.cfg Toy.parties := by
  intro hc
  obtain ⟨sh, a', hcore, hrec⟩ := Toy.forged Toy.rng52
  obtain ⟨rng, rng', hρ, hv⟩ := hc [.share Toy.rng52 sh]
  have hrun : (Aggregator.new Toy.cfg Toy.parties).run (Toy.suite 13) .checked [.share Toy.rng52 sh] = a' := by
    show (Toy.agg.receiveShare (Toy.suite 13) .checked Toy.rng52 sh).2 = a'
    rw [hrec]
  rw [hrun] at hv
  refine C33_poison (Toy.suite 13) (Toy.pairLaws 13) Toy.agg _ Toy.keyTable (by decide) (by decide) (by decide) [] .empty
    Toy.rng52 sh a' hrec _ ?_ [] (by simp) Toy.agg rfl rfl .checked rng rng' rfl hv
  rw [hcore]
  generalize hr : rng (Toy.agg.config.numParticipants - Toy.agg.config.degree - 1) = ρ
  have h0 : ρ ≠ 0 := by rw [← hr]; exact hρ
  clear hr
  revert ρ
  unfold Spec.BatchEq
  decide

/-- Non-vacuity of C11, C28, C31, C32: a transcript of three receipts of one honest share, accepted by every peer. -/
example : ∃ sh l, l.length = 3 ∧
    Spec.HonestTx (Toy.suite 13) Toy.cfg Toy.parties
      (Toy.agg.run (Toy.suite 13) .checked ([Toy.rng52, fun _ => 1, fun _ => 0].map fun rng => .share rng sh)).tx l ∧
    (Toy.agg.run (Toy.suite 13) .checked ([Toy.rng52, fun _ => 1, fun _ => 0].map fun rng => .share rng sh)).tx.core.comms =
      [21, 27, 33, 39] := by
  obtain ⟨sh, hcore, hid, ⟨p, hg⟩, -⟩ := Toy.accepted52
  obtain ⟨-, -, -, -, -, h6⟩ := C28 (Toy.suite 13) (Toy.pairLaws 13) .checked Toy.agg sh p hg (empty_wellFormed _ _)
    [Toy.rng52, fun _ => 1, fun _ => 0] (fun x w hx => by cases hx) (by decide) (by decide) (by decide) (by decide)
  obtain ⟨-, h2, -⟩ := C28_fresh (Toy.suite 13) (Toy.pairLaws 13) .checked .checked Toy.cfg Toy.parties sh p hg
    [Toy.rng52, fun _ => 1, fun _ => 0] (by simp) (by decide) (by decide) (by decide) (by decide)
  refine ⟨sh, _, ?_, h6 [] .empty, ?_⟩
  · simp
  · refine Eq.trans h2 ?_
    rw [hcore]
    decide

/-- Non-vacuity of C31 and C33_partial: the table of the concrete case is complete and in range; the concrete share is correct content. -/
example : (∀ i q, Toy.parties.get i = some q → i < Toy.cfg.numParticipants) ∧
    (∀ i < Toy.cfg.numParticipants, Toy.parties.get i ≠ none) ∧
    ∃ sh, sh.core = Toy.core52 ∧ Spec.CorrectOp (Toy.suite 13) Toy.cfg Toy.parties (.share Toy.rng52 sh) := by
  refine ⟨Toy.ids_lt, Toy.registered, ?_⟩
  obtain ⟨sh, hcore, hid, ⟨p, hg⟩, -⟩ := Toy.accepted52
  obtain ⟨pk, hk, hs⟩ := hg.keys
  refine ⟨sh, hcore, codeword_of_shares hs, fun i hi => ?_⟩
  obtain ⟨q, hq, hpk⟩ := hk i hi
  refine ⟨q, hq, ?_⟩
  rw [hpk]
  exact encOk_of_shares (Toy.suite 13) (Toy.pairLaws 13) hs hi

end Verif
