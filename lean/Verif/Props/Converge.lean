import Verif.Props.Weights
import Verif.Props.Share

/-!
# Convergence: C78

Aggregators that have accepted the same messages agree, whatever the order of arrival and whatever was refused in between.
-/

open Finset Polynomial

namespace Verif

set_option linter.unusedSectionVars false

variable {r : ℕ} [Fact r.Prime] {G1 G2 K : Type}
  [AddCommGroup G1] [DecidableEq G1] [AddCommGroup G2] [DecidableEq G2] [CommMonoid K] [DecidableEq K]
  [Module (ZMod r) G1] [Module (ZMod r) G2]

/-- The message carried by a call, without the receiver's random draws. -/
def Spec.msg : Op r G1 G2 → PVSSShare r G1 G2 ⊕ AggShare r G1 G2
  | .share _ sh => .inl sh
  | .agg _ ag => .inr ag

open Classical in
/-- The calls of a history that returned `Ok`. -/
noncomputable def Spec.accepted (S : Suite r G1 G2 K) (m : Mode) : Aggregator r G1 G2 → List (Op r G1 G2) → List (Op r G1 G2)
  | _, [] => []
  | a, op :: l =>
    if (a.step S m op).1 = .ok () then op :: Spec.accepted S m (a.step S m op).2 l
    else Spec.accepted S m (a.step S m op).2 l

/-- Two transcripts agree in everything but the copies of the signed proofs: configuration, vectors, contributors, their `gs`
and weights. -/
structure Spec.Agree (c c' : AggShare r G1 G2) : Prop where
  degree : c.degree = c'.degree
  num : c.numParticipants = c'.numParticipants
  core : c.core = c'.core
  contribs : ∀ i, (c.contributions.get i).map Spec.gsWeight = (c'.contributions.get i).map Spec.gsWeight

theorem agree_refl (c : AggShare r G1 G2) : Spec.Agree c c := ⟨rfl, rfl, rfl, fun _ => rfl⟩

theorem agree_trans {a b c : AggShare r G1 G2} (h : Spec.Agree a b) (h' : Spec.Agree b c) : Spec.Agree a c :=
  ⟨h.degree.trans h'.degree, h.num.trans h'.num, h.core.trans h'.core, fun i => (h.contribs i).trans (h'.contribs i)⟩

theorem mergeVal_congr {m : Mode} {x x' y y' v : Option (SignedProof r G2 × UInt64)}
    (hx : x.map Spec.gsWeight = x'.map Spec.gsWeight) (hy : y.map Spec.gsWeight = y'.map Spec.gsWeight)
    (h : mergeVal m x y = .ok v) : ∃ v', mergeVal m x' y' = .ok v' ∧ v.map Spec.gsWeight = v'.map Spec.gsWeight := by
  cases x with
  | none =>
    cases x' with
    | some _ => cases hx
    | none =>
      rw [mergeVal_none_left] at h
      cases h
      exact ⟨_, mergeVal_none_left m _, hy⟩
  | some x =>
    cases x' with
    | none => cases hx
    | some x' =>
      cases y with
      | none =>
        cases y' with
        | some _ => cases hy
        | none =>
          rw [mergeVal_none_right] at h
          cases h
          exact ⟨_, mergeVal_none_right m _, hx⟩
      | some y =>
        cases y' with
        | none => cases hy
        | some y' =>
          obtain ⟨x, w⟩ := x
          obtain ⟨x', w'⟩ := x'
          obtain ⟨y, u⟩ := y
          obtain ⟨y', u'⟩ := y'
          simp only [Option.map_some, Spec.gsWeight, Option.some.injEq, Prod.mk.injEq] at hx hy
          obtain ⟨hx1, rfl⟩ := hx
          obtain ⟨hy1, rfl⟩ := hy
          rw [mergeVal_some_ok_iff] at h
          obtain ⟨hgs, w'', hw, rfl⟩ := h
          refine ⟨some (x', w''), (mergeVal_some_ok_iff _ _ _ _ _ _).2 ⟨by rw [← hx1, ← hy1, hgs], w'', hw, rfl⟩, ?_⟩
          simp only [Option.map_some, Spec.gsWeight, hx1]

theorem aggregate_congr {m : Mode} {a a' b b' c : AggShare r G1 G2} (ha : Spec.Agree a a') (hb : Spec.Agree b b')
    (h : a.aggregate m b = .ok c) : ∃ c', a'.aggregate m b' = .ok c' ∧ Spec.Agree c c' := by
  rw [aggregate_iff] at h
  obtain ⟨h1, h2, h3, h4, h5, h6, h7⟩ := h
  have hv : ∀ i, ∃ v, i < a.numParticipants → mergeVal m (a'.contributions.get i) (b'.contributions.get i) = .ok v ∧
      (c.contributions.get i).map Spec.gsWeight = v.map Spec.gsWeight := by
    intro i
    by_cases hi : i < a.numParticipants
    · obtain ⟨v, k1, k2⟩ := mergeVal_congr (ha.contribs i) (hb.contribs i) (h6 i hi)
      exact ⟨v, fun _ => ⟨k1, k2⟩⟩
    · exact ⟨none, fun h => absurd h hi⟩
  choose v hv using hv
  have hd := ha.degree
  have hn := ha.num
  have hd' := hb.degree
  have hn' := hb.num
  obtain ⟨c', e1, e2, e3, e4, e5⟩ := aggregate_exists (m := m) (a := a') (b := b') c.core v (by omega) (by omega)
    (by rw [← ha.core, ← hb.core]; exact h5) fun i hi => (hv i (by omega)).1
  refine ⟨c', e1, by omega, by omega, e2.symm, fun i => ?_⟩
  rw [e5]
  split
  · exact (hv i (by omega)).2
  · rw [h7 i (by omega)]

/-- Aggregate a list of transcripts into one. -/
def aggAll (m : Mode) : AggShare r G1 G2 → List (AggShare r G1 G2) → Res PVSSError (AggShare r G1 G2)
  | a, [] => .ok a
  | a, x :: l => a.aggregate m x >>= fun b => aggAll m b l

theorem aggAll_congr {m : Mode} (l : List (AggShare r G1 G2)) {a a' c : AggShare r G1 G2} (ha : Spec.Agree a a')
    (h : aggAll m a l = .ok c) : ∃ c', aggAll m a' l = .ok c' ∧ Spec.Agree c c' := by
  induction l generalizing a a' with
  | nil => cases h; exact ⟨a', rfl, ha⟩
  | cons x l ih =>
    obtain ⟨b, h1, h2⟩ := Res.bind_eq_ok.1 h
    obtain ⟨b', k1, k2⟩ := aggregate_congr ha (agree_refl x) h1
    obtain ⟨c', k3, k4⟩ := ih k2 h2
    exact ⟨c', Res.bind_eq_ok.2 ⟨b', k1, k3⟩, k4⟩

theorem aggAll_swap {m : Mode} {a x y c : AggShare r G1 G2} (h : (a.aggregate m x >>= fun b => b.aggregate m y) = .ok c) :
    ∃ c', (a.aggregate m y >>= fun b => b.aggregate m x) = .ok c' ∧ Spec.Agree c c' := by
  obtain ⟨u, h1, h2⟩ := Res.bind_eq_ok.1 ((C24 m a x y c).1 h)
  obtain ⟨hc, hs⟩ := C23 m x y
  obtain ⟨u', h3⟩ := hc.1 ⟨u, h1⟩
  obtain ⟨s1, s2, s3, s4, -⟩ := hs u u' h1 h3
  obtain ⟨c', k1, k2⟩ := aggregate_congr (agree_refl a) ⟨s2, s3, s1, s4⟩ h2
  exact ⟨c', (C24 m a y x c').2 (Res.bind_eq_ok.2 ⟨u', h3, k1⟩), k2⟩

theorem aggAll_perm {m : Mode} {l l' : List (AggShare r G1 G2)} (hp : l.Perm l') {a c : AggShare r G1 G2}
    (h : aggAll m a l = .ok c) : ∃ c', aggAll m a l' = .ok c' ∧ Spec.Agree c c' := by
  induction hp generalizing a c with
  | nil => exact ⟨c, h, agree_refl c⟩
  | cons x _ ih =>
    obtain ⟨b, h1, h2⟩ := Res.bind_eq_ok.1 h
    obtain ⟨c', k1, k2⟩ := ih h2
    exact ⟨c', Res.bind_eq_ok.2 ⟨b, h1, k1⟩, k2⟩
  | swap x y l =>
    obtain ⟨b, h1, h2⟩ := Res.bind_eq_ok.1 h
    obtain ⟨b1, h3, h4⟩ := Res.bind_eq_ok.1 h2
    obtain ⟨d, k1, k2⟩ := aggAll_swap (Res.bind_eq_ok.2 ⟨b, h1, h3⟩)
    obtain ⟨u, k3, k4⟩ := Res.bind_eq_ok.1 k1
    obtain ⟨c', k5, k6⟩ := aggAll_congr l k2 h4
    exact ⟨c', Res.bind_eq_ok.2 ⟨u, k3, Res.bind_eq_ok.2 ⟨d, k4, k5⟩⟩, k6⟩
  | trans _ _ ih1 ih2 =>
    obtain ⟨c1, k1, k2⟩ := ih1 h
    obtain ⟨c2, k3, k4⟩ := ih2 k1
    exact ⟨c2, k3, agree_trans k2 k4⟩

/-- What a message adds to a transcript of the given configuration. -/
def msgTx (t n : ℕ) : PVSSShare r G1 G2 ⊕ AggShare r G1 G2 → AggShare r G1 G2
  | .inl sh => AggShare.ofShare t n sh
  | .inr ag => ag

/-- The verification a call performs; it does not depend on the transcript. -/
def verified (S : Suite r G1 G2 K) (m : Mode) (a : Aggregator r G1 G2) : Op r G1 G2 → Prop
  | .share rng sh => ∃ rng', a.shareVerify S m rng sh = .ok rng'
  | .agg rng ag => ∃ rng', a.aggregationVerify S m rng ag = .ok rng'

theorem verified_congr {S : Suite r G1 G2 K} {m : Mode} {a a' : Aggregator r G1 G2} (h1 : a.config = a'.config)
    (h2 : a.participants = a'.participants) (op : Op r G1 G2) : verified S m a op ↔ verified S m a' op := by
  obtain ⟨c, p, t⟩ := a
  obtain ⟨c', p', t'⟩ := a'
  cases h1
  cases h2
  cases op <;> exact Iff.rfl

theorem step_ok_iff (S : Suite r G1 G2 K) (m : Mode) (a a' : Aggregator r G1 G2) (op : Op r G1 G2) :
    a.step S m op = (.ok (), a') ↔ verified S m a op ∧
      ∃ tx, a.tx.aggregate m (msgTx a.tx.degree a.tx.numParticipants (Spec.msg op)) = .ok tx ∧ a' = { a with tx := tx } := by
  cases op with
  | share rng sh =>
    show a.receiveShare S m rng sh = _ ↔ _
    rw [receiveShare_ok_iff]
    exact ⟨fun ⟨rng', tx, h1, h2, h3⟩ => ⟨⟨rng', h1⟩, tx, h2, h3⟩, fun ⟨⟨rng', h1⟩, tx, h2, h3⟩ => ⟨rng', tx, h1, h2, h3⟩⟩
  | agg rng ag =>
    show a.receiveAggregatedShare S m rng ag = _ ↔ _
    rw [receiveAgg_ok_iff]
    exact ⟨fun ⟨rng', tx, h1, h2, h3⟩ => ⟨⟨rng', h1⟩, tx, h2, h3⟩, fun ⟨⟨rng', h1⟩, tx, h2, h3⟩ => ⟨rng', tx, h1, h2, h3⟩⟩

/-- A history adds up its accepted messages. -/
theorem run_accepted (S : Suite r G1 G2 K) (m : Mode) (ops : List (Op r G1 G2)) (a : Aggregator r G1 G2) :
    ∃ tx, aggAll m a.tx ((Spec.accepted S m a ops).map fun op => msgTx a.tx.degree a.tx.numParticipants (Spec.msg op)) = .ok tx ∧
      a.run S m ops = { a with tx := tx } ∧ ∀ op ∈ Spec.accepted S m a ops, verified S m a op := by
  induction ops generalizing a with
  | nil => exact ⟨a.tx, rfl, rfl, fun op h => by simp [Spec.accepted] at h⟩
  | cons op ops ih =>
    have hrun : a.run S m (op :: ops) = (a.step S m op).2.run S m ops := rfl
    by_cases h : (a.step S m op).1 = .ok ()
    · obtain ⟨hv, tx, h1, h2⟩ := (step_ok_iff S m a _ op).1 (Prod.ext h rfl : a.step S m op = (.ok (), (a.step S m op).2))
      obtain ⟨d1, d2⟩ := aggregate_config h1
      obtain ⟨tx', k1, k2, k3⟩ := ih (a.step S m op).2
      rw [hrun, Spec.accepted, if_pos h]
      rw [h2] at k1 k2 k3 ⊢
      simp only at k1 k2
      rw [d1, d2] at k1
      refine ⟨tx', Res.bind_eq_ok.2 ⟨tx, h1, k1⟩, k2, fun o ho => ?_⟩
      rcases List.mem_cons.1 ho with rfl | ho
      · exact hv
      · exact (verified_congr rfl rfl o).1 (k3 o ho)
    · rw [hrun, Spec.accepted, if_neg h, (C19 S m a op).1 h]
      exact ih a

/-- **C78** (convergence). Two histories of aggregators in the same state whose accepted messages are the same up to order
(and up to the random draws of the receivers), with arbitrary other messages refused in between, end in states that agree. -/
theorem C78 (S : Suite r G1 G2 K) (m : Mode) (a : Aggregator r G1 G2) (ops ops' : List (Op r G1 G2))
    (hp : ((Spec.accepted S m a ops).map Spec.msg).Perm ((Spec.accepted S m a ops').map Spec.msg)) :
    (a.run S m ops).config = (a.run S m ops').config ∧ (a.run S m ops).participants = (a.run S m ops').participants ∧
      Spec.Agree (a.run S m ops).tx (a.run S m ops').tx := by
  obtain ⟨tx, h1, h2, -⟩ := run_accepted S m ops a
  obtain ⟨tx', k1, k2, -⟩ := run_accepted S m ops' a
  have hp' := hp.map (msgTx a.tx.degree a.tx.numParticipants)
  rw [List.map_map, List.map_map] at hp'
  obtain ⟨c, e1, e2⟩ := aggAll_perm hp' h1
  have e3 : aggAll m a.tx (List.map (msgTx a.tx.degree a.tx.numParticipants ∘ Spec.msg) (Spec.accepted S m a ops')) = .ok tx' := k1
  rw [e3] at e1
  cases e1
  rw [h2, k2]
  exact ⟨rfl, rfl, e2⟩

theorem run_of_verified (S : Suite r G1 G2 K) (m : Mode) (ops : List (Op r G1 G2)) (a : Aggregator r G1 G2)
    (tx : AggShare r G1 G2) (hv : ∀ op ∈ ops, verified S m a op)
    (h : aggAll m a.tx (ops.map fun op => msgTx a.tx.degree a.tx.numParticipants (Spec.msg op)) = .ok tx) :
    Spec.accepted S m a ops = ops := by
  induction ops generalizing a with
  | nil => rfl
  | cons op ops ih =>
    obtain ⟨b, h1, h2⟩ := Res.bind_eq_ok.1 h
    have hs := (step_ok_iff S m a { a with tx := b } op).2 ⟨hv op (by simp), b, h1, rfl⟩
    obtain ⟨d1, d2⟩ := aggregate_config h1
    rw [Spec.accepted, hs, if_pos rfl]
    congr 1
    refine ih _ (fun o ho => (verified_congr rfl rfl o).2 (hv o (by simp [ho]))) ?_
    simp only
    rw [d1, d2]
    exact h2

/-- **C78** (order of arrival). If all calls of a history are accepted, they are accepted in every order. -/
theorem C78_order (S : Suite r G1 G2 K) (m : Mode) (a : Aggregator r G1 G2) (ops ops' : List (Op r G1 G2)) (hp : ops.Perm ops')
    (h : Spec.accepted S m a ops = ops) : Spec.accepted S m a ops' = ops' := by
  obtain ⟨tx, h1, h2, h3⟩ := run_accepted S m ops a
  rw [h] at h1 h3
  obtain ⟨c, e1, -⟩ := aggAll_perm (hp.map fun op => msgTx a.tx.degree a.tx.numParticipants (Spec.msg op)) h1
  exact run_of_verified S m ops' a c (fun op ho => h3 op (hp.mem_iff.2 ho)) e1

/-- **C78** (verdict of peers). Two aggregators that start fresh and accept the same messages up to order hold transcripts that
every peer judges alike for the same random draws. -/
theorem C78_verdict (S : Suite r G1 G2 K) (hS : PairLaws S) (cfg : Config G1 G2) (ps : BMap (Participant G1))
    (hids : ∀ i q, ps.get i = some q → i < cfg.numParticipants) (hn : cfg.numParticipants ≤ r)
    (hcap : cfg.numParticipants < 2 ^ 58) (ht : cfg.degree + 2 ≤ cfg.numParticipants) (ops ops' : List (Op r G1 G2))
    (hp : ((Spec.accepted S .checked (Aggregator.new cfg ps) ops).map Spec.msg).Perm
      ((Spec.accepted S .checked (Aggregator.new cfg ps) ops').map Spec.msg))
    (peer : Aggregator r G1 G2) (hpc : peer.config = cfg) (hpp : peer.participants = ps) (m : Mode) (rng : Rng r) :
    (∃ rng', peer.aggregationVerify S m rng ((Aggregator.new cfg ps).run S .checked ops).tx = .ok rng') ↔
      ∃ rng', peer.aggregationVerify S m rng ((Aggregator.new cfg ps).run S .checked ops').tx = .ok rng' := by
  have h1 := C33_decides S hS cfg ps hids hn hcap ht ops peer hpc hpp m rng
  have h2 := C33_decides S hS cfg ps hids hn hcap ht ops' peer hpc hpp m rng
  simp only at h1 h2
  rw [h1, h2, (C78 S .checked _ ops ops' hp).2.2.core]

/-- **C78** (equivocation). Which messages are accepted may depend on the order: of two valid shares of one dealer with
different `gs` the first to arrive is kept and the second is refused, so the two orders end in transcripts that disagree. -/
theorem C78_equivocation (S : Suite r G1 G2 K) (hS : PairLaws S) (m : Mode) (a : Aggregator r G1 G2) (rng rng' : Rng r)
    (sh sh' : PVSSShare r G1 G2) (hw : Spec.WellFormed a.config.degree a.config.numParticipants a.tx)
    (hid : sh.participantId = sh'.participantId) (hnew : a.tx.contributions.get sh.participantId = none)
    (hv : ∃ rng1, a.shareVerify S m rng sh = .ok rng1) (hv' : ∃ rng1, a.shareVerify S m rng' sh' = .ok rng1)
    (hne : sh.signedProof.decompProof.gs ≠ sh'.signedProof.decompProof.gs) :
    Spec.accepted S m a [.share rng sh, .share rng' sh'] = [.share rng sh] ∧
    Spec.accepted S m a [.share rng' sh', .share rng sh] = [.share rng' sh'] ∧
    ¬ Spec.Agree (a.run S m [.share rng sh, .share rng' sh']).tx (a.run S m [.share rng' sh', .share rng sh]).tx := by
  have key : ∀ (rng rng' : Rng r) (sh sh' : PVSSShare r G1 G2), sh.participantId = sh'.participantId →
      a.tx.contributions.get sh.participantId = none → (∃ rng1, a.shareVerify S m rng sh = .ok rng1) →
      (∃ rng1, a.shareVerify S m rng' sh' = .ok rng1) →
      sh.signedProof.decompProof.gs ≠ sh'.signedProof.decompProof.gs →
      Spec.accepted S m a [.share rng sh, .share rng' sh'] = [.share rng sh] ∧
      (a.run S m [.share rng sh, .share rng' sh']).tx.contributions.get sh.participantId = some (sh.signedProof, 1) := by
    intro rng rng' sh sh' hid hnew ⟨rng1, hv⟩ ⟨rng1', hv'⟩ hne
    obtain ⟨q, -, q2, q3, q4, -⟩ := (shareVerify_iff S hS m a rng rng1 sh).1 hv
    obtain ⟨tx, h1⟩ := aggregatePvssShare_ok m a.config a.tx sh
      ⟨hw.degree, hw.num, hw.encs_length, hw.comms_length, fun x w hx => by rw [hnew] at hx; cases hx⟩ (by omega) q3 q4
    have hs : a.step S m (.share rng sh) = (.ok (), { a with tx := tx }) :=
      (receiveShare_ok_iff S m a _ rng sh).2 ⟨rng1, tx, hv, h1, rfl⟩
    obtain ⟨d1, d2⟩ := aggregate_config h1
    have hg : tx.contributions.get sh.participantId = some (sh.signedProof, 1) := by
      have := ((aggregate_iff _ _ _ _).1 h1).2.2.2.2.2.1 sh.participantId (by rw [hw.num]; exact q2)
      rw [hnew, mergeVal_none_left, get_ofShare, if_pos rfl] at this
      exact (Res.ok.inj this).symm
    have h2 : (Aggregator.step S m { a with tx := tx } (.share rng' sh')) =
        (.err .TranscriptDifferentCommitments, { a with tx := tx }) := by
      refine C29_share S hS m { a with tx := tx } rng' rng1' sh' hv' sh.signedProof 1 ?_ ?_ hne
      · show tx.numParticipants = _
        rw [← hw.num]
        omega
      · rw [← hid]; exact hg
    constructor
    · simp only [Spec.accepted, hs, h2, if_pos]
      rw [if_neg (by simp)]
    · show ((({ a with tx := a.tx } : Aggregator r G1 G2).step S m (.share rng sh)).2.step S m (.share rng' sh')).2.tx.contributions.get _ = _
      rw [hs]
      simp only
      rw [h2]
      exact hg
  obtain ⟨k1, k2⟩ := key rng rng' sh sh' hid hnew hv hv' hne
  obtain ⟨k3, k4⟩ := key rng' rng sh' sh hid.symm (by rw [← hid]; exact hnew) hv' hv (Ne.symm hne)
  refine ⟨k1, k3, fun h => ?_⟩
  have := h.contribs sh.participantId
  rw [k2, hid, k4] at this
  simp only [Option.map_some, Spec.gsWeight, Option.some.injEq, Prod.mk.injEq, and_true] at this
  exact hne this

/-! ### concrete cases -/

namespace Toy

/-- Party `i` deals with the given stream: an accepted share whose `gs` is the first draw. -/
theorem dealt (i : ℕ) (hi : i < 4) (rng : Rng 13) (h0 : rng 0 ≠ 0) :
    ∃ sh : PVSSShare 13 (ZMod 13) (ZMod 13), sh.participantId = i ∧ sh.signedProof.decompProof.gs = rng 0 ∧
      (∃ p, Spec.GoodShare (suite 13) cfg parties sh p) ∧
      ∀ rng', ∃ rng1, agg.shareVerify (suite 13) .checked rng' sh = .ok rng1 := by
  have hk : (suite 13).ed.keypairOk (node i).dealer.skEd.bytes = true := by
    match i, hi with
    | 0, _ => decide
    | 1, _ => decide
    | 2, _ => decide
    | 3, _ => decide
  obtain ⟨⟨sh, rng1⟩, h⟩ := (C73 (suite 13) (hashTotal 13) .checked (node i) rng (show 2 < 2 ^ 58 by decide)).1.2
    ⟨show 1 ≤ 4 by decide, registered, hi, ⟨0, Nat.zero_le _, h0⟩, hk⟩
  obtain ⟨hid, p, hg⟩ := share_good (suite 13) edLaws .checked (node i) (goodDealer i hi) rng rng1 sh h
  obtain ⟨-, -, hgs, -⟩ := C73_contents (suite 13) .checked (node i) rng rng1 sh
    (fun j => match parties.get j with | some q => q.pkSig | none => 0)
    (fun j q (hq : parties.get j = some q) => by simp [hq]) (show 2 < 2 ^ 58 by decide) h
  refine ⟨sh, hid, ?_, ⟨p, hg⟩, fun rng' => shareVerify_good (suite 13) (pairLaws 13) .checked agg rng' sh p hg
    (by decide) (by decide) (Or.inl (by decide))⟩
  rw [hgs]
  show rng 0 * (1 : ZMod 13) = rng 0
  rw [mul_one]

end Toy

/-- Non-vacuity of C78, C78_order and C78_verdict: shares of parties 1 and 2 are accepted in both orders, with different
random draws of the receivers. -/
example : ∃ sh1 sh2 : PVSSShare 13 (ZMod 13) (ZMod 13), sh1.participantId = 1 ∧ sh2.participantId = 2 ∧
    ∀ rng1 rng2 : Rng 13, Spec.accepted (Toy.suite 13) .checked Toy.agg [.share rng1 sh1, .share rng2 sh2] =
      [.share rng1 sh1, .share rng2 sh2] ∧
    Spec.Agree (Toy.agg.run (Toy.suite 13) .checked [.share rng1 sh1, .share rng2 sh2]).tx
      (Toy.agg.run (Toy.suite 13) .checked [.share rng1 sh2, .share rng2 sh1]).tx := by
  obtain ⟨sh1, i1, g1, ⟨p1, q1⟩, v1⟩ := Toy.dealt 1 (by decide) (fun _ => 5) (by decide)
  obtain ⟨sh2, i2, g2, ⟨p2, q2⟩, v2⟩ := Toy.dealt 2 (by decide) (fun _ => 6) (by decide)
  have key : ∀ (sh sh' : PVSSShare 13 (ZMod 13) (ZMod 13)) (rng rng' : Rng 13), sh.participantId ≠ sh'.participantId →
      (∃ rng1, Toy.agg.shareVerify (Toy.suite 13) .checked rng sh = .ok rng1) →
      (∃ rng1, Toy.agg.shareVerify (Toy.suite 13) .checked rng' sh' = .ok rng1) →
      Spec.accepted (Toy.suite 13) .checked Toy.agg [.share rng sh, .share rng' sh'] = [.share rng sh, .share rng' sh'] := by
    intro sh sh' rng rng' hne hv hv'
    obtain ⟨r1, hv⟩ := hv
    obtain ⟨r2, hv'⟩ := hv'
    obtain ⟨-, -, -, e1, e2, -⟩ := (shareVerify_iff (Toy.suite 13) (Toy.pairLaws 13) .checked Toy.agg rng r1 sh).1 hv
    obtain ⟨-, -, -, e3, e4, -⟩ := (shareVerify_iff (Toy.suite 13) (Toy.pairLaws 13) .checked Toy.agg rng' r2 sh').1 hv'
    obtain ⟨tx, h1⟩ := aggregatePvssShare_ok .checked Toy.cfg Toy.agg.tx sh
      ⟨rfl, rfl, rfl, rfl, fun x w hx => by cases hx⟩ (by decide) e1 e2
    have hw := aggregate_wellFormed h1 rfl rfl
    have hnone : tx.contributions.get sh'.participantId = none := by
      cases hg : tx.contributions.get sh'.participantId with
      | none => rfl
      | some v =>
        have := ((aggregate_iff _ _ _ _).1 h1).2.2.2.2.2.1 sh'.participantId (hw.ids _ v hg)
        rw [get_ofShare, if_neg (Ne.symm hne), mergeVal_none_right, hg] at this
        cases this
    obtain ⟨tx', h2⟩ := aggregatePvssShare_ok .checked Toy.cfg tx sh'
      ⟨hw.degree, hw.num, hw.encs_length, hw.comms_length, fun x w hx => by rw [hnone] at hx; cases hx⟩ (by decide) e3 e4
    have hd := hw.degree
    have hn := hw.num
    refine run_of_verified (Toy.suite 13) .checked _ Toy.agg tx' ?_ (Res.bind_eq_ok.2 ⟨tx, h1, Res.bind_eq_ok.2 ⟨tx', ?_, rfl⟩⟩)
    · intro op ho
      simp only [List.mem_cons, List.not_mem_nil, or_false] at ho
      rcases ho with rfl | rfl
      · exact ⟨r1, hv⟩
      · exact ⟨r2, hv'⟩
    · unfold AggShare.aggregatePvssShare at h2
      rw [hd, hn] at h2
      exact h2
  refine ⟨sh1, sh2, i1, i2, fun rng1 rng2 => ?_⟩
  have a1 := key sh1 sh2 rng1 rng2 (by rw [i1, i2]; decide) (v1 rng1) (v2 rng2)
  have a2 := key sh2 sh1 rng1 rng2 (by rw [i1, i2]; decide) (v2 rng1) (v1 rng2)
  refine ⟨a1, (C78 (Toy.suite 13) .checked Toy.agg _ _ ?_).2.2⟩
  rw [a1, a2]
  exact List.Perm.swap _ _ _

/-- Non-vacuity of C78_equivocation (and of C29_share): party 2 deals twice, with different secrets. -/
example : ∃ sh sh' : PVSSShare 13 (ZMod 13) (ZMod 13), ∀ rng rng' : Rng 13,
    Spec.accepted (Toy.suite 13) .checked Toy.agg [.share rng sh, .share rng' sh'] = [.share rng sh] ∧
    ¬ Spec.Agree (Toy.agg.run (Toy.suite 13) .checked [.share rng sh, .share rng' sh']).tx
      (Toy.agg.run (Toy.suite 13) .checked [.share rng' sh', .share rng sh]).tx := by
  obtain ⟨sh, i1, g1, -, v1⟩ := Toy.dealt 2 (by decide) (fun _ => 5) (by decide)
  obtain ⟨sh', i2, g2, -, v2⟩ := Toy.dealt 2 (by decide) (fun _ => 6) (by decide)
  refine ⟨sh, sh', fun rng rng' => ?_⟩
  obtain ⟨k1, -, k3⟩ := C78_equivocation (Toy.suite 13) (Toy.pairLaws 13) .checked Toy.agg rng rng' sh sh'
    (empty_wellFormed _ _) (by rw [i1, i2]) rfl (v1 rng) (v2 rng') (by rw [g1, g2]; decide)
  exact ⟨k1, k3⟩

/-- Non-vacuity of C29_agg: party 2's second share, wrapped as a transcript, is accepted by a fresh aggregator but not by one that
holds the first. -/
example (rng rng' : Rng 13) : ∃ (sh : PVSSShare 13 (ZMod 13) (ZMod 13)) (ag : AggShare 13 (ZMod 13) (ZMod 13)),
    (Toy.agg.receiveAggregatedShare (Toy.suite 13) .checked rng ag).1 = .ok () ∧
    (Toy.agg.receiveShare (Toy.suite 13) .checked rng' sh).1 = .ok () ∧
    ((Toy.agg.receiveShare (Toy.suite 13) .checked rng' sh).2.receiveAggregatedShare (Toy.suite 13) .checked rng ag).1 ≠ .ok () := by
  obtain ⟨sh, i1, g1, ⟨p, hg⟩, v1⟩ := Toy.dealt 2 (by decide) (fun _ => 5) (by decide)
  obtain ⟨sh', i2, g2, ⟨p', hg'⟩, v2⟩ := Toy.dealt 2 (by decide) (fun _ => 6) (by decide)
  obtain ⟨r1, hv⟩ := v1 rng'
  obtain ⟨-, -, -, e1, e2, -⟩ := (shareVerify_iff (Toy.suite 13) (Toy.pairLaws 13) .checked Toy.agg rng' r1 sh).1 hv
  obtain ⟨tx, h1⟩ := aggregatePvssShare_ok .checked Toy.cfg Toy.agg.tx sh
    ⟨rfl, rfl, rfl, rfl, fun x w hx => by cases hx⟩ (by decide) e1 e2
  have hs : Toy.agg.receiveShare (Toy.suite 13) .checked rng' sh = (.ok (), { Toy.agg with tx := tx }) :=
    (receiveShare_ok_iff _ _ _ _ _ _).2 ⟨r1, tx, hv, h1, rfl⟩
  have hget : tx.contributions.get 2 = some (sh.signedProof, 1) := by
    have := ((aggregate_iff _ _ _ _).1 h1).2.2.2.2.2.1 2 (by decide)
    rw [get_ofShare, if_pos i1.symm] at this
    exact (Res.ok.inj this).symm
  have hnum : tx.numParticipants = 4 := (aggregate_config h1).2
  refine ⟨sh, Spec.scaled Toy.cfg sh' 1, ?_, by rw [hs], ?_⟩
  · obtain ⟨r2, hv2⟩ := C62_accept (Toy.suite 13) (Toy.pairLaws 13) .checked Toy.agg sh' p' hg' 1 (by decide) (by decide)
      (by decide) (by decide) rng
    obtain ⟨-, l1, l2, -⟩ := hg'.keys.choose_spec.2
    have hwf : Spec.WellFormed Toy.cfg.degree Toy.cfg.numParticipants (Spec.scaled Toy.cfg sh' 1) := by
      refine ⟨rfl, rfl, by simp [Spec.scaled, l1], by simp [Spec.scaled, l2], fun i v hx => ?_⟩
      rw [get_scaled] at hx
      split at hx
      · rename_i hi; rw [hi]; exact hg'.id_lt
      · cases hx
    exact congrArg Prod.fst ((receiveAgg_ok_iff _ _ _ _ _ _).2 ⟨r2, _, hv2,
      (C25 .checked Toy.cfg.degree Toy.cfg.numParticipants (by decide) _ hwf).1, rfl⟩)
  · rw [hs]
    refine (C29_agg (Toy.suite 13) .checked { Toy.agg with tx := tx } rng (Spec.scaled Toy.cfg sh' 1) 2 sh.signedProof sh'.signedProof
      1 1 ?_ hget (by rw [get_scaled, if_pos i2.symm]; rfl) (by rw [g1, g2]; decide)).2.1
    show 2 < tx.numParticipants
    omega

end Verif
