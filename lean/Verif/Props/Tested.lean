import Verif.Props.Network
import Verif.Props.Weights

/-!
# Three tests on the contributions of a received transcript close the gaps in the bookkeeping: C118

C35, C62 and C63 are false of the code because `receive_aggregated_share` (aggregator.rs:254-267) takes over whatever contributions a
transcript lists; C84 is false because weights double with every exchange.  Here a transcript is handed to the unchanged function only if all
listed ids are ids of parties, all listed weights are positive, and no weight would exceed `2^63` with it.  Shares are handed over as they
are.
-/

open Finset Polynomial

set_option linter.unusedSectionVars false

namespace Verif

variable {r : ℕ} [Fact r.Prime] {G1 G2 K : Type}
  [AddCommGroup G1] [DecidableEq G1] [AddCommGroup G2] [DecidableEq G2] [CommMonoid K] [DecidableEq K]
  [Module (ZMod r) G1] [Module (ZMod r) G2]

/-- The three tests. -/
structure Spec.Sane (a : Aggregator r G1 G2) (ag : AggShare r G1 G2) : Prop where
  ids : ∀ i v, ag.contributions.get i = some v → i < a.config.numParticipants
  pos : ∀ i x w, ag.contributions.get i = some (x, w) → w ≠ 0
  room : ∀ i, Spec.weightOf a.tx i + Spec.weightOf ag i ≤ 2 ^ 63

/-- Whether a message is handed over. -/
def Spec.HandedOver (a : Aggregator r G1 G2) : Op r G1 G2 → Prop
  | .share _ _ => True
  | .agg _ ag => Spec.Sane a ag

open Classical in
/-- A call behind the tests. -/
noncomputable def Spec.tested (S : Suite r G1 G2 K) (m : Mode) (a : Aggregator r G1 G2) (op : Op r G1 G2) : Aggregator r G1 G2 :=
  if Spec.HandedOver a op then (a.step S m op).2 else a

/-- Calls behind the tests. -/
noncomputable def Spec.testedRun (S : Suite r G1 G2 K) (m : Mode) (a : Aggregator r G1 G2) (ops : List (Op r G1 G2)) : Aggregator r G1 G2 :=
  ops.foldl (Spec.tested S m) a

/-- The number of shares among some messages. -/
def Spec.shareOps : List (Op r G1 G2) → ℕ
  | [] => 0
  | .share _ _ :: ops => Spec.shareOps ops + 1
  | .agg _ _ :: ops => Spec.shareOps ops

/-- What holds at all times. -/
structure Spec.Books (S : Suite r G1 G2 K) (cfg : Config G1 G2) (ps : BMap (Participant G1)) (k : ℕ) (tx : AggShare r G1 G2) : Prop where
  inv : Spec.TxInv S cfg ps tx
  pos : ∀ i x w, tx.contributions.get i = some (x, w) → w ≠ 0
  bound : ∀ i, Spec.weightOf tx i ≤ 2 ^ 63 + k

theorem weightOf_some {tx : AggShare r G1 G2} {i : ℕ} {x : SignedProof r G2} {w : UInt64} (h : tx.contributions.get i = some (x, w)) :
    Spec.weightOf tx i = w.toNat := by
  unfold Spec.weightOf
  rw [h]
  rfl

theorem weightOf_none {tx : AggShare r G1 G2} {i : ℕ} (h : tx.contributions.get i = none) : Spec.weightOf tx i = 0 := by
  unfold Spec.weightOf
  rw [h]
  rfl

/-- Merging without overflow adds the weights and keeps the proofs. -/
theorem merge_exact {m : Mode} {a b c : AggShare r G1 G2} (h : a.aggregate m b = .ok c)
    (hb : ∀ i v, b.contributions.get i = some v → i < a.numParticipants) (ha : ∀ i v, a.contributions.get i = some v → i < a.numParticipants)
    (hfit : ∀ i, Spec.weightOf a i + Spec.weightOf b i < 2 ^ 64) :
    a.aggregate .checked b = .ok c ∧ (∀ i, Spec.weightOf c i = Spec.weightOf a i + Spec.weightOf b i) ∧
    (∀ i x w, a.contributions.get i = some (x, w) → ∃ w', c.contributions.get i = some (x, w')) ∧
    ∀ i y w, b.contributions.get i = some (y, w) → ∃ x w', c.contributions.get i = some (x, w') ∧ x.decompProof.gs = y.decompProof.gs := by
  have hck : a.aggregate .checked b = .ok c := by
    refine aggregate_to_checked h fun i x w y w' hx hy => ?_
    have := hfit i
    rwa [weightOf_some hx, weightOf_some hy] at this
  have key : ∀ i, i < a.numParticipants → _ := fun i hi => C35_partial .checked a b c hck i hi
  refine ⟨hck, fun i => ?_, fun i x w hx => ?_, fun i y w hy => ?_⟩
  · by_cases hi : i < a.numParticipants
    · obtain ⟨p1, p2, p3, p4⟩ := key i hi
      cases hx : a.contributions.get i with
      | none =>
        cases hy : b.contributions.get i with
        | none => rw [weightOf_none (p4 hx hy), weightOf_none hx, weightOf_none hy]
        | some y => rw [weightOf_some (p2 y.1 y.2 hx hy), weightOf_none hx, weightOf_some (x := y.1) (w := y.2) hy, zero_add]
      | some x =>
        cases hy : b.contributions.get i with
        | none => rw [weightOf_some (p1 x.1 x.2 hx hy), weightOf_none hy, weightOf_some (x := x.1) (w := x.2) hx, add_zero]
        | some y =>
          have hf := hfit i
          rw [weightOf_some (x := x.1) (w := x.2) hx, weightOf_some (x := y.1) (w := y.2) hy] at hf
          rw [weightOf_some (p3 x.1 x.2 y.1 y.2 hx hy).2, weightOf_some (x := x.1) (w := x.2) hx, weightOf_some (x := y.1) (w := y.2) hy,
            UInt64.toNat_add, Nat.mod_eq_of_lt hf]
    · have h1 : a.contributions.get i = none := by
        cases hx : a.contributions.get i with
        | none => rfl
        | some x => exact absurd (ha i x hx) hi
      have h2 : b.contributions.get i = none := by
        cases hx : b.contributions.get i with
        | none => rfl
        | some x => exact absurd (hb i x hx) hi
      rw [weightOf_none (C35_drop .checked a b c hck i (by omega)), weightOf_none h1, weightOf_none h2]
  · obtain ⟨p1, -, p3, -⟩ := key i (ha i _ hx)
    cases hy : b.contributions.get i with
    | none => exact ⟨_, p1 x w hx hy⟩
    | some y => exact ⟨_, (p3 x w y.1 y.2 hx hy).2⟩
  · obtain ⟨-, p2, p3, -⟩ := key i (hb i _ hy)
    cases hx : a.contributions.get i with
    | none => exact ⟨_, _, p2 y w hx hy, rfl⟩
    | some x => exact ⟨_, _, (p3 x.1 x.2 y w hx hy).2, (p3 x.1 x.2 y w hx hy).1⟩

/-- What an accepted transcript contributes, if the ids are ids of parties. -/
theorem txInv_sane {S : Suite r G1 G2 K} (hS : PairLaws S) {m : Mode} {a : Aggregator r G1 G2} {rng rng' : Rng r}
    {ag : AggShare r G1 G2} (h : a.aggregationVerify S m rng ag = .ok rng') (hn : a.config.numParticipants ≤ r)
    (h64 : a.config.numParticipants < 2 ^ 64) (hd : ag.degree = a.config.degree)
    (hnum : ag.numParticipants = a.config.numParticipants)
    (hids : ∀ i v, ag.contributions.get i = some v → i < a.config.numParticipants) : Spec.TxInv S a.config a.participants ag := by
  obtain ⟨h1, h2, rng1, h3, -, h5, h6, -⟩ := (aggregationVerify_iff S hS m a rng rng' ag).1 h
  have hle := ensureDegree_le h3
  exact ⟨hd, hnum, h1, h2, fun i x w hx => ⟨hids i _ hx, h5 i x w hx⟩, (lagrangeSimple_iff m hle (by omega) (by omega) _).1 h6⟩

/-- One call behind the tests. -/
theorem tested_step {S : Suite r G1 G2 K} (hS : PairLaws S) (m : Mode) {a : Aggregator r G1 G2} {k : ℕ} (op : Op r G1 G2)
    (hn : a.config.numParticipants ≤ r) (h64 : a.config.numParticipants < 2 ^ 64)
    (h : Spec.Books S a.config a.participants k a.tx) (hk : k + 1 < 2 ^ 63) (hp : Spec.HandedOver a op) :
    Spec.Books S a.config a.participants (k + Spec.shareOps [op]) (a.step S m op).2.tx ∧
    ((a.step S m op).2 ≠ a ∨ (a.step S m op).1 = .ok () →
      (∀ i, Spec.weightOf (a.step S m op).2.tx i = Spec.weightOf a.tx i + Spec.opWeight op i) ∧
      (∀ i x w, a.tx.contributions.get i = some (x, w) → ∃ w', (a.step S m op).2.tx.contributions.get i = some (x, w'))) := by
  have hpos : ∀ b c : AggShare r G1 G2, (∀ i, Spec.weightOf c i = Spec.weightOf a.tx i + Spec.weightOf b i) →
      a.tx.aggregate .checked b = .ok c →
      (∀ i x w, b.contributions.get i = some (x, w) → w ≠ 0) → ∀ i x w, c.contributions.get i = some (x, w) → w ≠ 0 := by
    intro b c hW hck hb i x w hx h0
    have hi : i < a.tx.numParticipants := by
      by_contra hi
      rw [C35_drop .checked _ b c hck i (by omega)] at hx
      cases hx
    have hw := hW i
    rw [weightOf_some hx, h0] at hw
    have h00 : (0 : UInt64).toNat = 0 := rfl
    have h1 : ∀ d : AggShare r G1 G2, (∀ i x w, d.contributions.get i = some (x, w) → w ≠ 0) → Spec.weightOf d i = 0 →
        d.contributions.get i = none := by
      intro d hd hz
      cases hg : d.contributions.get i with
      | none => rfl
      | some v =>
        rw [weightOf_some (x := v.1) (w := v.2) hg] at hz
        exact absurd (UInt64.toNat_inj.1 (hz.trans h00.symm)) (hd i v.1 v.2 hg)
    have ha0 := h1 a.tx h.pos (by omega)
    have hb0 := h1 b hb (by omega)
    rw [(C35_partial .checked a.tx b c hck i hi).2.2.2 ha0 hb0] at hx
    cases hx
  have hown : ∀ i v, a.tx.contributions.get i = some v → i < a.tx.numParticipants := fun i v hv => by
    rw [h.inv.num]; exact (h.inv.contribs i v.1 v.2 hv).1
  cases op with
  | share rng sh =>
    have hs1 : Spec.shareOps [(Op.share rng sh : Op r G1 G2)] = 1 := rfl
    rw [hs1]
    have keep : Spec.Books S a.config a.participants (k + 1) a.tx := ⟨h.inv, h.pos, fun i => (h.bound i).trans (by omega)⟩
    have ok : ∀ tx rng', a.shareVerify S m rng sh = .ok rng' → a.tx.aggregatePvssShare m sh = .ok tx →
        Spec.Books S a.config a.participants (k + 1) tx ∧
        (∀ i, Spec.weightOf tx i = Spec.weightOf a.tx i + Spec.opWeight (.share rng sh) i) ∧
        (∀ i x w, a.tx.contributions.get i = some (x, w) → ∃ w', tx.contributions.get i = some (x, w')) := by
      intro tx rng' h3 h5
      unfold AggShare.aggregatePvssShare at h5
      rw [h.inv.degree, h.inv.num] at h5
      have hsh := txInv_share hS h3 hn h64
      have hW : ∀ i, Spec.weightOf (AggShare.ofShare a.config.degree a.config.numParticipants sh) i = Spec.opWeight (.share rng sh) i :=
        fun i => weightOf_ofShare _ _ _ _
      have hone : ∀ i, Spec.opWeight (.share rng sh : Op r G1 G2) i ≤ 1 := by
        intro i
        rw [Spec.opWeight]
        split <;> omega
      obtain ⟨hck, hsum, hk1, -⟩ := merge_exact h5 (fun i v hv => by rw [h.inv.num]; exact (hsh.contribs i v.1 v.2 hv).1) hown (fun i => by
        rw [hW]
        have := h.bound i
        have := hone i
        omega)
      refine ⟨⟨txInv_merge h.inv hsh hck, hpos _ _ hsum hck fun i x w hx => ?_, fun i => ?_⟩, fun i => by rw [hsum, hW], hk1⟩
      · rw [get_ofShare] at hx
        split at hx
        · obtain ⟨rfl, rfl⟩ := Prod.mk.inj (Option.some.inj hx)
          decide
        · cases hx
      · rw [hsum, hW]
        have := h.bound i
        have := hone i
        omega
    rcases step_ok_cases S m a (.share rng sh) with h4 | ⟨_, rng', sh', tx, e, h3, h5, h6⟩ | ⟨_, _, _, _, e, _⟩
    · refine ⟨by rw [h4]; exact keep, fun hor => ?_⟩
      rcases hor with hne | hok
      · exact absurd h4 hne
      · obtain ⟨rng', tx, h1, h2, h3⟩ := (receiveShare_ok_iff S m a _ rng sh).1 (Prod.ext hok rfl)
        obtain ⟨-, q⟩ := ok tx rng' h1 h2
        have h3' : (a.step S m (.share rng sh)).2 = { a with tx := tx } := h3
        rw [h3']
        exact q
    · cases e
      obtain ⟨q1, q2⟩ := ok tx rng' h3 h5
      rw [h6]
      exact ⟨q1, fun _ => q2⟩
    · cases e
  | agg rng ag =>
    have hs0 : Spec.shareOps [(Op.agg rng ag : Op r G1 G2)] = 0 := rfl
    rw [hs0, add_zero]
    have hsane : Spec.Sane a ag := hp
    have ok : ∀ tx rng', a.aggregationVerify S m rng ag = .ok rng' → a.tx.aggregate m ag = .ok tx →
        Spec.Books S a.config a.participants k tx ∧
        (∀ i, Spec.weightOf tx i = Spec.weightOf a.tx i + Spec.opWeight (.agg rng ag) i) ∧
        (∀ i x w, a.tx.contributions.get i = some (x, w) → ∃ w', tx.contributions.get i = some (x, w')) := by
      intro tx rng' h3 h5
      obtain ⟨k1, k2, -⟩ := (aggregate_iff _ _ _ _).1 h5
      have hag := txInv_sane hS h3 hn h64 (by rw [← k1, h.inv.degree]) (by rw [← k2, h.inv.num]) hsane.ids
      obtain ⟨hck, hsum, hk1, -⟩ := merge_exact h5 (fun i v hv => by rw [h.inv.num]; exact hsane.ids i v hv) hown (fun i => by
        have := hsane.room i
        omega)
      refine ⟨⟨txInv_merge h.inv hag hck, hpos _ _ hsum hck hsane.pos, fun i => ?_⟩, hsum, hk1⟩
      rw [hsum]
      exact (hsane.room i).trans (by omega)
    rcases step_ok_cases S m a (.agg rng ag) with h4 | ⟨_, _, _, _, e, _⟩ | ⟨_, rng', ag', tx, e, h3, h5, h6⟩
    · refine ⟨by rw [h4]; exact h, fun hor => ?_⟩
      rcases hor with hne | hok
      · exact absurd h4 hne
      · obtain ⟨rng', tx, h1, h2, h3⟩ := (receiveAgg_ok_iff S m a _ rng ag).1 (Prod.ext hok rfl)
        obtain ⟨-, q⟩ := ok tx rng' h1 h2
        have h3' : (a.step S m (.agg rng ag)).2 = { a with tx := tx } := h3
        rw [h3']
        exact q
    · cases e
    · cases e
      obtain ⟨q1, q2⟩ := ok tx rng' h3 h5
      rw [h6]
      exact ⟨q1, fun _ => q2⟩

theorem shareOps_cons (op : Op r G1 G2) (ops : List (Op r G1 G2)) : Spec.shareOps (op :: ops) = Spec.shareOps [op] + Spec.shareOps ops := by
  cases op <;> simp only [Spec.shareOps] <;> omega

theorem tested_config (S : Suite r G1 G2 K) (m : Mode) (a : Aggregator r G1 G2) (op : Op r G1 G2) :
    (Spec.tested S m a op).config = a.config ∧ (Spec.tested S m a op).participants = a.participants := by
  unfold Spec.tested
  split
  · obtain ⟨-, k1, k2⟩ := C19 S m a op
    exact ⟨k1, k2⟩
  · exact ⟨rfl, rfl⟩

theorem testedRun_config (S : Suite r G1 G2 K) (m : Mode) (ops : List (Op r G1 G2)) : ∀ a : Aggregator r G1 G2,
    (Spec.testedRun S m a ops).config = a.config ∧ (Spec.testedRun S m a ops).participants = a.participants := by
  induction ops with
  | nil => exact fun a => ⟨rfl, rfl⟩
  | cons op ops ih =>
    intro a
    obtain ⟨h1, h2⟩ := ih (Spec.tested S m a op)
    obtain ⟨k1, k2⟩ := tested_config S m a op
    exact ⟨h1.trans k1, h2.trans k2⟩

/-- **C118** (at all times). Behind the tests, after any calls with any messages, fewer than `2^63 - 1` of them shares, in every build mode and
for every table of participants: the transcript has the form of C31 (ids of parties, valid signed proofs, commitments that
interpolate to the weighted sum), every listed party has a positive weight (C63), and no weight exceeds `2^63` by more than the number of
shares received. -/
theorem C118 (S : Suite r G1 G2 K) (hS : PairLaws S) (m : Mode) (cfg : Config G1 G2) (ps : BMap (Participant G1))
    (hn : cfg.numParticipants ≤ r) (h64 : cfg.numParticipants < 2 ^ 64) (ops : List (Op r G1 G2)) (hk : Spec.shareOps ops + 1 < 2 ^ 63) :
    Spec.Books S cfg ps (Spec.shareOps ops) (Spec.testedRun S m (Aggregator.new cfg ps) ops).tx := by
  suffices h : ∀ (k : ℕ) (a : Aggregator r G1 G2), a.config = cfg → a.participants = ps → Spec.Books S cfg ps k a.tx →
      k + Spec.shareOps ops + 1 < 2 ^ 63 → Spec.Books S cfg ps (k + Spec.shareOps ops) (Spec.testedRun S m a ops).tx by
    have := h 0 (Aggregator.new cfg ps) rfl rfl ⟨txInv_empty S cfg ps, (fun i x w hx => by cases hx), fun i => Nat.zero_le _⟩ (by omega)
    rwa [zero_add] at this
  clear hk
  induction ops with
  | nil => exact fun k a _ _ h _ => h
  | cons op ops ih =>
    intro k a hc hp h hk
    rw [shareOps_cons] at hk
    rw [shareOps_cons, ← add_assoc]
    obtain ⟨k1, k2⟩ := tested_config S m a op
    refine ih (k + Spec.shareOps [op]) (Spec.tested S m a op) (k1.trans hc) (k2.trans hp) ?_ (by omega)
    subst hc hp
    unfold Spec.tested
    split
    · rename_i hpass
      exact (tested_step hS m op hn h64 h (by omega) hpass).1
    · exact ⟨h.inv, h.pos, fun i => (h.bound i).trans (by omega)⟩

/-- **C118** (nothing is lost). A call that succeeds, or changes anything, adds exactly the weights of the message to those of the
transcript, modulo nothing, and keeps the recorded proofs. As all weights are positive, every contributor of the transcript and of the
message is listed afterwards (C35). -/
theorem C118_merge (S : Suite r G1 G2 K) (hS : PairLaws S) (m : Mode) (cfg : Config G1 G2) (ps : BMap (Participant G1))
    (hn : cfg.numParticipants ≤ r) (h64 : cfg.numParticipants < 2 ^ 64) (ops : List (Op r G1 G2)) (hk : Spec.shareOps ops + 1 < 2 ^ 63)
    (op : Op r G1 G2) :
    let a := Spec.testedRun S m (Aggregator.new cfg ps) ops
    Spec.HandedOver a op → (a.step S m op).2 ≠ a ∨ (a.step S m op).1 = .ok () →
      (∀ i, Spec.weightOf (a.step S m op).2.tx i = Spec.weightOf a.tx i + Spec.opWeight op i) ∧
      (∀ i x w, a.tx.contributions.get i = some (x, w) → ∃ w', (a.step S m op).2.tx.contributions.get i = some (x, w')) ∧
      ∀ i, Spec.opWeight op i ≠ 0 → (a.step S m op).2.tx.contributions.get i ≠ none := by
  intro a hpass hor
  have hb := C118 S hS m cfg ps hn h64 ops hk
  obtain ⟨hc, hp⟩ := testedRun_config S m ops (Aggregator.new cfg ps)
  change a.config = cfg at hc
  change a.participants = ps at hp
  change Spec.Books S cfg ps _ a.tx at hb
  rw [← hc, ← hp] at hb
  obtain ⟨h1, h2⟩ := (tested_step hS m op (by rw [hc]; exact hn) (by rw [hc]; exact h64) hb (by omega) hpass).2 hor
  refine ⟨h1, h2, fun i hi h0 => hi ?_⟩
  have := h1 i
  rw [weightOf_none h0] at this
  omega

/-- Acceptance by a peer of a transcript in good form: degree test and batched pairing equation. -/
theorem accepts_iff (S : Suite r G1 G2 K) (hS : PairLaws S) (peer : Aggregator r G1 G2) (tx : AggShare r G1 G2)
    (hinv : Spec.TxInv S peer.config peer.participants tx) (hn : peer.config.numParticipants ≤ r)
    (hcap : peer.config.numParticipants < 2 ^ 58) (ht : peer.config.degree + 2 ≤ peer.config.numParticipants) (m : Mode) (rng : Rng r) :
    (∃ rng', peer.aggregationVerify S m rng tx = .ok rng') ↔
      Spec.DegreeTest peer.config.degree tx.core.comms rng ∧
      ∃ pk, Spec.KeyTable peer.participants peer.config.numParticipants pk ∧
        Spec.BatchEq S peer.config.srs.g2 pk tx.core (rng (peer.config.numParticipants - peer.config.degree - 1)) := by
  have hl := hinv.comms_length
  constructor
  · rintro ⟨rng', h⟩
    obtain ⟨-, -, rng1, h3, h4, -⟩ := (aggregationVerify_iff S hS m peer rng rng' tx).1 h
    rw [ensureDegree_iff m rng rng1 _ (by omega) (by omega) (by omega), hl] at h3
    obtain ⟨h3, rfl⟩ := h3
    exact ⟨h3, by simpa [Rng.drop] using h4⟩
  · rintro ⟨h1, h2⟩
    refine ⟨_, (aggregationVerify_iff S hS m peer rng _ tx).2 ⟨hinv.encs_length, hl, _,
      (ensureDegree_iff m rng _ _ (by omega) (by omega) (by omega)).2 ⟨h1, rfl⟩, ?_,
      fun i x w hx => (hinv.contribs i x w hx).2, ?_, rfl⟩⟩
    · rw [hl]; simpa [Rng.drop] using h2
    · exact (lagrangeSimple_iff m (by omega) (by omega) (by omega) _).2 hinv.interp

/-- **C118** (no lock-out). Behind the tests, whatever was received before (fewer than `2^63 - 2` shares), a correct share of a dealer whose
recorded `gs` agrees is received, in every build mode; and a peer that accepts the transcript without it accepts the transcript with it for
the same draws (C62). -/
theorem C118_share (S : Suite r G1 G2 K) (hS : PairLaws S) (m : Mode) (cfg : Config G1 G2) (ps : BMap (Participant G1))
    (hn : cfg.numParticipants ≤ r) (hcap : cfg.numParticipants < 2 ^ 58) (ht : cfg.degree + 2 ≤ cfg.numParticipants)
    (ops : List (Op r G1 G2)) (hk : Spec.shareOps ops + 2 < 2 ^ 63) (sh : PVSSShare r G1 G2) (p : (ZMod r)[X])
    (hg : Spec.GoodShare S cfg ps sh p) (rng : Rng r) :
    let a := Spec.testedRun S m (Aggregator.new cfg ps) ops
    (∀ x w, a.tx.contributions.get sh.participantId = some (x, w) → x.decompProof.gs = sh.signedProof.decompProof.gs) →
      (a.receiveShare S m rng sh).1 = .ok () ∧
      ∀ (peer : Aggregator r G1 G2) (m' : Mode) (ρ ρ' : Rng r), peer.config = cfg → peer.participants = ps →
        peer.aggregationVerify S m' ρ a.tx = .ok ρ' →
        ∃ ρ'', peer.aggregationVerify S m' ρ (a.receiveShare S m rng sh).2.tx = .ok ρ'' := by
  intro a hgs
  have hb := C118 S hS m cfg ps hn (by omega) ops (by omega)
  obtain ⟨hc, hp⟩ := testedRun_config S m ops (Aggregator.new cfg ps)
  change a.config = cfg at hc
  change a.participants = ps at hp
  change Spec.Books S cfg ps _ a.tx at hb
  obtain ⟨cfg', ps', tx⟩ := a
  change cfg' = cfg at hc
  change ps' = ps at hp
  subst hc hp
  obtain ⟨pk, hkt, hs⟩ := hg.keys
  obtain ⟨rng', hv⟩ := shareVerify_good S hS m ⟨cfg', ps', tx⟩ rng sh p hg hn hcap (Or.inl ht)
  obtain ⟨tx', h2⟩ := aggregatePvssShare_ok m cfg' tx sh
    ⟨hb.inv.degree, hb.inv.num, hb.inv.encs_length, hb.inv.comms_length, fun x w hx => ⟨hgs x w hx, by
      have := hb.bound sh.participantId
      rw [weightOf_some hx] at this
      omega⟩⟩ (by omega) hs.encs_length hs.comms_length
  have hrec := (receiveShare_ok_iff S m ⟨cfg', ps', tx⟩ ⟨cfg', ps', tx'⟩ rng sh).2 ⟨rng', tx', hv, h2, rfl⟩
  refine ⟨by rw [hrec], fun peer m' ρ ρ' e1 e2 hacc => ?_⟩
  rw [hrec]
  have hinv' : Spec.TxInv S cfg' ps' tx' := by
    have := (tested_step hS m (a := ⟨cfg', ps', tx⟩) (.share rng sh) hn (show cfg'.numParticipants < 2 ^ 64 by omega) hb (by omega) trivial).1.inv
    have hst : (Aggregator.step S m ⟨cfg', ps', tx⟩ (.share rng sh)).2 = ⟨cfg', ps', tx'⟩ := congrArg Prod.snd hrec
    rw [hst] at this
    exact this
  subst e1 e2
  obtain ⟨d1, pk', hk', d2⟩ := (accepts_iff S hS peer tx hb.inv hn hcap ht m' ρ).1 ⟨ρ', hacc⟩
  refine (accepts_iff S hS peer tx' hinv' hn hcap ht m' ρ).2 ⟨?_, pk', hk', ?_⟩
  · obtain ⟨-, e3, -, -, -, e6⟩ := (coreAggregate_iff _ _ _).1 ((aggregate_iff _ _ _ _).1 h2).2.2.2.2.1
    rw [e6]
    refine degreeTest_add e3 d1 (degreeTest_codeword ?_ ?_ (codeword_of_shares hs) _)
    · show _ ≤ sh.core.comms.length
      rw [hs.comms_length]; exact ht
    · show sh.core.comms.length ≤ r
      rw [hs.comms_length]; exact hn
  · refine (batchEq_add_iff hS ((aggregate_iff _ _ _ _).1 h2).2.2.2.2.1 d2).2 ?_
    refine batchEq_of_shares S hS (p := p) ⟨hs.degree, hs.encs_length, hs.comms_length, hs.comm, fun i hi => ?_⟩ _
    rw [← keyTable_unique hkt hk' i (hs.encs_length ▸ hi)]
    exact hs.enc i hi

/-! ### The network of C84 behind the tests -/

open Classical in
/-- An event of the network, with the tests in front of every call. -/
noncomputable def Spec.Net.testedStep (S : Suite r G1 G2 K) (m : Mode) (D : List (PVSSShare r G1 G2)) (N : Spec.Net r G1 G2)
    (e : Spec.Ev r) : Spec.Net r G1 G2 :=
  if ∀ j op, N.call D e = some (j, op) → Spec.HandedOver (N.node j) op then N.step S m D e else N

/-- Events of the network, with the tests in front of every call. -/
noncomputable def Spec.Net.testedRun (S : Suite r G1 G2 K) (m : Mode) (D : List (PVSSShare r G1 G2)) (N : Spec.Net r G1 G2)
    (evs : List (Spec.Ev r)) : Spec.Net r G1 G2 := evs.foldl (Spec.Net.testedStep S m D) N

/-- A transcript of published shares fails the tests only for lack of room. -/
theorem honest_sane {S : Suite r G1 G2 K} {a : Aggregator r G1 G2} {ag : AggShare r G1 G2} {l : List (PVSSShare r G1 G2 × (ZMod r)[X])}
    {E : List (PVSSShare r G1 G2 × (ZMod r)[X])} (hE : Spec.Published S a.config a.participants E)
    (h : Spec.HonestTx S a.config a.participants ag l) (hl : l ⊆ E) :
    Spec.Sane a ag ↔ ∀ i, Spec.weightOf a.tx i + Spec.weightOf ag i ≤ 2 ^ 63 := by
  refine ⟨fun h => h.room, fun hr => ⟨fun i v hv => ?_, fun i x w hx h0 => ?_, hr⟩⟩
  · obtain ⟨⟨e, he, rfl, -⟩, -⟩ := (honest_contribs h).1 i v.1 v.2 hv
    exact (hE.good e (hl he)).id_lt
  · obtain ⟨⟨e, he, rfl, -⟩, hc⟩ := (honest_contribs h).1 i x w hx
    rw [h0] at hc
    have h0' := (List.countP_eq_zero.1 hc.symm) e he
    simp at h0'

theorem tested_net_step {S : Suite r G1 G2 K} (hS : PairLaws S) {cfg : Config G1 G2} {ps : BMap (Participant G1)}
    {E : List (PVSSShare r G1 G2 × (ZMod r)[X])} (hE : Spec.Setting S cfg ps E) {N : Spec.Net r G1 G2}
    (hN : NetInv S cfg ps E N) {k : ℕ} (hk : k + 1 < 2 ^ 63) (hb : ∀ j i, Spec.weightOf (N.node j).tx i ≤ 2 ^ 63 + k) (m : Mode) (e : Spec.Ev r) :
    NetInv S cfg ps E (N.testedStep S m (E.map (·.1)) e) ∧
    (∀ j i, Spec.weightOf ((N.testedStep S m (E.map (·.1)) e).node j).tx i ≤ 2 ^ 63 + (k + Spec.shareCount [e])) ∧
    N.testedStep S m (E.map (·.1)) e = N.testedStep S .checked (E.map (·.1)) e ∧
    ((∀ j op, N.call (E.map (·.1)) e = some (j, op) → Spec.HandedOver (N.node j) op) → N.outcome S m (E.map (·.1)) e = .ok ()) ∧
    (∀ j op, N.call (E.map (·.1)) e = some (j, op) → ¬ Spec.HandedOver (N.node j) op →
      (∃ rng ag, op = .agg rng ag) ∧ ∃ i, 2 ^ 63 < Spec.weightOf (N.node j).tx i + Spec.opWeight op i) := by
  have href : ∀ j op, N.call (E.map (·.1)) e = some (j, op) → ¬ Spec.HandedOver (N.node j) op →
      (∃ rng ag, op = .agg rng ag) ∧ ∃ i, 2 ^ 63 < Spec.weightOf (N.node j).tx i + Spec.opWeight op i := by
    intro j op hc hp
    cases op with
    | share rng sh => exact absurd trivial hp
    | agg rng ag =>
      refine ⟨⟨rng, ag, rfl⟩, ?_⟩
      obtain ⟨l, hl, hlE⟩ := netInv_call hN hc
      by_contra hno
      push Not at hno
      refine hp ((honest_sane (S := S) (a := N.node j) (E := E) ?_ (l := l) ?_ hlE).2 hno)
      · rw [hN.config, hN.parts]; exact hE.published
      · rw [hN.config, hN.parts]; exact hl
  by_cases hp : ∀ j op, N.call (E.map (·.1)) e = some (j, op) → Spec.HandedOver (N.node j) op
  · have hle : ∀ j op, N.call (E.map (·.1)) e = some (j, op) → ∀ i,
        Spec.weightOf (N.node j).tx i + Spec.opWeight op i ≤ 2 ^ 63 + (k + Spec.shareCount [e]) := by
      intro j op hc i
      have hbi := hb j i
      cases e with
      | share j' rng c =>
        simp only [Spec.Net.call, Option.map_eq_some_iff] at hc
        obtain ⟨sh, -, hc⟩ := hc
        obtain ⟨-, rfl⟩ := Prod.mk.inj hc
        have h1 : Spec.opWeight (.share rng sh : Op r G1 G2) i ≤ 1 := by
          rw [Spec.opWeight]; split <;> omega
        have h2 : Spec.shareCount [(Spec.Ev.share j' rng c : Spec.Ev r)] = 1 := rfl
        omega
      | post c => cases hc
      | merge j' rng c =>
        have hpp := hp j op hc
        simp only [Spec.Net.call, Option.map_eq_some_iff] at hc
        obtain ⟨tx, -, hc⟩ := hc
        obtain ⟨-, rfl⟩ := Prod.mk.inj hc
        exact (Spec.Sane.room hpp i).trans (by omega)
    have hs1 : Spec.shareCount [e] ≤ 1 := by cases e <;> simp [Spec.shareCount]
    have hfit : N.Fits (E.map (·.1)) e := fun j op hc i => by
      have := hle j op hc i
      omega
    obtain ⟨h1, h2, h3, h4⟩ := (net_step hS hE hN m e).1 hfit
    have ht : ∀ m, N.testedStep S m (E.map (·.1)) e = N.step S m (E.map (·.1)) e := fun m => if_pos hp
    rw [ht, ht]
    refine ⟨h3, fun j i => ?_, h1, fun _ => h2, href⟩
    by_cases hc : ∃ op, N.call (E.map (·.1)) e = some (j, op)
    · obtain ⟨op, hc⟩ := hc
      rw [h4 j op hc i]
      exact hle j op hc i
    · have : (N.step S m (E.map (·.1)) e).node j = N.node j := by
        cases hcc : N.call (E.map (·.1)) e with
        | none => simp only [Spec.Net.step, hcc]
        | some c =>
          have hj : j ≠ c.1 := fun h => hc ⟨c.2, by rw [hcc, h]⟩
          simp only [Spec.Net.step, hcc]
          exact Function.update_of_ne hj _ _
      rw [this]
      exact (hb j i).trans (by omega)
  · have ht : ∀ m, N.testedStep S m (E.map (·.1)) e = N := fun m => if_neg hp
    rw [ht, ht]
    exact ⟨hN, fun j i => (hb j i).trans (by omega), rfl, fun h => absurd h hp, href⟩

/-- **C118** (honest network). Dealers publish correct shares, and the network loses, repeats and reorders them and the posted transcripts at
will, with fewer than `2^63 - 2` deliveries of shares. Behind the tests, in every build mode: every call returns `Ok`; a message is refused
only if it is a transcript with which a weight would exceed `2^63`; every node's transcript is accepted by every peer for every draw (C84). -/
theorem C118_network (S : Suite r G1 G2 K) (hS : PairLaws S) (m : Mode) (cfg : Config G1 G2) (ps : BMap (Participant G1))
    (E : List (PVSSShare r G1 G2 × (ZMod r)[X])) (hE : Spec.Setting S cfg ps E) (evs : List (Spec.Ev r))
    (hk : Spec.shareCount evs + 1 < 2 ^ 63) :
    let D := E.map (·.1)
    let N := (Spec.Net.start cfg ps).testedRun S m D evs
    N = (Spec.Net.start cfg ps).testedRun S .checked D evs ∧
    (∀ e, (∀ j op, N.call D e = some (j, op) → Spec.HandedOver (N.node j) op) → N.outcome S m D e = .ok ()) ∧
    (∀ e j op, N.call D e = some (j, op) → ¬ Spec.HandedOver (N.node j) op →
      (∃ rng ag, op = .agg rng ag) ∧ ∃ i, 2 ^ 63 < Spec.weightOf (N.node j).tx i + Spec.opWeight op i) ∧
    ∀ i (peer : Aggregator r G1 G2) m' rng, peer.config = cfg → peer.participants = ps →
      ∃ rng', peer.aggregationVerify S m' rng (N.node i).tx = .ok rng' := by
  have key : ∀ (evs : List (Spec.Ev r)) (k : ℕ) (N : Spec.Net r G1 G2), NetInv S cfg ps E N → (∀ j i, Spec.weightOf (N.node j).tx i ≤ 2 ^ 63 + k) →
      k + Spec.shareCount evs + 1 < 2 ^ 63 →
      NetInv S cfg ps E (N.testedRun S m (E.map (·.1)) evs) ∧
      (∀ j i, Spec.weightOf ((N.testedRun S m (E.map (·.1)) evs).node j).tx i ≤ 2 ^ 63 + (k + Spec.shareCount evs)) ∧
      N.testedRun S m (E.map (·.1)) evs = N.testedRun S .checked (E.map (·.1)) evs := by
    intro evs
    induction evs with
    | nil => exact fun k N hN hb _ => ⟨hN, hb, rfl⟩
    | cons e evs ih =>
      intro k N hN hb hlt
      have hsc : Spec.shareCount (e :: evs) = Spec.shareCount [e] + Spec.shareCount evs := by
        cases e <;> simp only [Spec.shareCount] <;> omega
      rw [hsc] at hlt
      obtain ⟨h1, h2, h3, -⟩ := tested_net_step hS hE hN (k := k) (by omega) hb m e
      obtain ⟨q1, q2, q3⟩ := ih (k + Spec.shareCount [e]) _ h1 h2 (by omega)
      refine ⟨q1, fun j i => (q2 j i).trans (by omega), ?_⟩
      have q4 : (N.testedStep S m (E.map (·.1)) e).testedRun S .checked (E.map (·.1)) evs =
          (N.testedStep S .checked (E.map (·.1)) e).testedRun S .checked (E.map (·.1)) evs := by rw [h3]
      exact q3.trans q4
  obtain ⟨h1, h2, h3⟩ := key evs 0 (.start cfg ps) (netInv_start S cfg ps E) (fun j i => Nat.zero_le _) (by omega)
  rw [zero_add] at h2
  intro D N
  refine ⟨h3, fun e => (tested_net_step hS hE h1 hk h2 m e).2.2.2.1, fun e => (tested_net_step hS hE h1 hk h2 m e).2.2.2.2, ?_⟩
  rintro i peer m' rng rfl rfl
  obtain ⟨l, hl, -⟩ := h1.node i
  exact C32 S hS m' peer _ l hl hE.registered hE.n_le hE.cap (Or.inl hE.deg) rng

/-- **C118** (honest executions are unchanged). With `s` deliveries of shares and `g` deliveries of transcripts of the honest network and
`s * 2^g ≤ 2^63`, the tests refuse nothing: the nodes are as without the tests. -/
theorem C118_same (S : Suite r G1 G2 K) (hS : PairLaws S) (m : Mode) (cfg : Config G1 G2) (ps : BMap (Participant G1))
    (E : List (PVSSShare r G1 G2 × (ZMod r)[X])) (hE : Spec.Setting S cfg ps E) (evs : List (Spec.Ev r))
    (hk : Spec.shareCount evs * 2 ^ Spec.mergeCount evs ≤ 2 ^ 63) (hk' : Spec.shareCount evs + 1 < 2 ^ 63) :
    (Spec.Net.start cfg ps).testedRun S m (E.map (·.1)) evs = (Spec.Net.start cfg ps).run S m (E.map (·.1)) evs := by
  have key : ∀ (evs : List (Spec.Ev r)) (N : Spec.Net r G1 G2), NetInv S cfg ps E N → N.AllOk S .checked (E.map (·.1)) evs →
      (∀ evs1 evs2, evs = evs1 ++ evs2 → ∀ j i, Spec.weightOf ((N.run S .checked (E.map (·.1)) evs1).node j).tx i ≤ 2 ^ 63) →
      N.testedRun S .checked (E.map (·.1)) evs = N.run S .checked (E.map (·.1)) evs := by
    intro evs
    induction evs with
    | nil => exact fun N _ _ _ => rfl
    | cons e evs ih =>
      intro N hN hok hb
      have hfit : N.Fits (E.map (·.1)) e := by
        by_contra hf
        have := ((net_step hS hE hN .checked e).2 hf).1
        rw [hok.1] at this
        cases this
      obtain ⟨-, -, h3, h4⟩ := (net_step hS hE hN .checked e).1 hfit
      have hp : ∀ j op, N.call (E.map (·.1)) e = some (j, op) → Spec.HandedOver (N.node j) op := by
        intro j op hc
        cases op with
        | share rng sh => trivial
        | agg rng ag =>
          obtain ⟨l, hl, hlE⟩ := netInv_call hN hc
          refine (honest_sane (S := S) (a := N.node j) (E := E) (l := l) ?_ ?_ hlE).2 fun i => ?_
          · rw [hN.config, hN.parts]; exact hE.published
          · rw [hN.config, hN.parts]; exact hl
          · have h5 := h4 j _ hc i
            have h6 := hb [e] evs rfl j i
            have h7 : N.run S .checked (E.map (·.1)) [e] = N.step S .checked (E.map (·.1)) e := rfl
            rw [h7, h5] at h6
            exact h6
      have ht : N.testedStep S .checked (E.map (·.1)) e = N.step S .checked (E.map (·.1)) e := if_pos hp
      show (N.testedStep S .checked (E.map (·.1)) e).testedRun S .checked (E.map (·.1)) evs = _
      rw [ht]
      exact ih _ h3 hok.2 fun evs1 evs2 h => hb (e :: evs1) evs2 (by rw [h]; rfl)
  have hcount : ∀ evs1 evs2 : List (Spec.Ev r), Spec.shareCount evs1 ≤ Spec.shareCount (evs1 ++ evs2) ∧
      Spec.mergeCount evs1 ≤ Spec.mergeCount (evs1 ++ evs2) := by
    intro evs1 evs2
    induction evs1 with
    | nil => exact ⟨Nat.zero_le _, Nat.zero_le _⟩
    | cons e evs1 ih =>
      cases e <;> simp only [List.cons_append, Spec.shareCount, Spec.mergeCount] <;> omega
  obtain ⟨h1, -, -⟩ := C84_partial S hS .checked cfg ps E hE evs (by omega)
  obtain ⟨-, h2, -⟩ := C84_partial S hS m cfg ps E hE evs (by omega)
  obtain ⟨h3, -⟩ := C118_network S hS m cfg ps E hE evs hk'
  refine h3.trans (Eq.trans (key evs _ (netInv_start S cfg ps E) h1 ?_) h2.symm)
  intro evs1 evs2 he j i
  obtain ⟨c1, c2⟩ := hcount evs1 evs2
  rw [← he] at c1 c2
  have hle : Spec.shareCount evs1 * 2 ^ Spec.mergeCount evs1 ≤ 2 ^ 63 :=
    (Nat.mul_le_mul c1 (Nat.pow_le_pow_right (by norm_num) c2)).trans hk
  exact ((C84_partial S hS .checked cfg ps E hE evs1 (by omega)).2.2 j i).trans hle

/-- **C118** (what the tests cannot do). The `2^63`-fold of a correct share passes the tests and is accepted; afterwards no transcript that
lists its dealer passes, though the dealer's share itself is still received (C118_share). -/
theorem C118_limit (S : Suite r G1 G2 K) (hS : PairLaws S) (m : Mode) (cfg : Config G1 G2) (ps : BMap (Participant G1))
    (sh : PVSSShare r G1 G2) (p : (ZMod r)[X]) (hg : Spec.GoodShare S cfg ps sh p)
    (hn : cfg.numParticipants ≤ r) (hcap : cfg.numParticipants < 2 ^ 58) (ht : cfg.degree + 2 ≤ cfg.numParticipants) (rng rng' : Rng r) :
    let op : Op r G1 G2 := .agg rng (Spec.scaled cfg sh (2 ^ 63))
    let a := Spec.testedRun S m (Aggregator.new cfg ps) [op]
    Spec.HandedOver (Aggregator.new cfg ps) op ∧ ((Aggregator.new cfg ps).step S m op).1 = .ok () ∧ Spec.weightOf a.tx sh.participantId = 2 ^ 63 ∧
    (∀ ag, Spec.weightOf ag sh.participantId ≠ 0 → ¬ Spec.Sane a ag) ∧
    (a.receiveShare S m rng' sh).1 = .ok () := by
  obtain ⟨k, hk⟩ : ∃ k, k = 2 ^ 63 := ⟨_, rfl⟩
  rw [← hk]
  obtain ⟨rng1, hv⟩ := C62_accept S hS m (Aggregator.new cfg ps) sh p hg k (by omega) hn hcap ht rng
  obtain ⟨pk, hkt, hs⟩ := hg.keys
  have hs' := shares_scaled k hs
  have hid : sh.participantId < cfg.numParticipants := hg.id_lt
  have hidx : ∀ i v, (Spec.scaled cfg sh k).contributions.get i = some v → i < cfg.numParticipants := by
    intro i v hx
    rw [get_scaled] at hx
    split at hx
    · rename_i hi; rw [hi]; exact hid
    · cases hx
  have hwf : Spec.WellFormed cfg.degree cfg.numParticipants (Spec.scaled cfg sh k) :=
    ⟨rfl, rfl, hs'.encs_length, hs'.comms_length, hidx⟩
  have hagg := (C25 m cfg.degree cfg.numParticipants (by omega) _ hwf).1
  have hrec : (Aggregator.new cfg ps).step S m (.agg rng (Spec.scaled cfg sh k)) =
      (.ok (), ⟨cfg, ps, Spec.scaled cfg sh k⟩) := (receiveAgg_ok_iff _ _ _ _ _ _).2 ⟨rng1, _, hv, hagg, rfl⟩
  have hw : ∀ i, Spec.weightOf (Spec.scaled cfg sh k) i = if i = sh.participantId then k else 0 := by
    intro i
    by_cases hi : i = sh.participantId
    · rw [if_pos hi]
      have := get_scaled cfg sh k i
      rw [if_pos hi] at this
      rw [weightOf_some this, UInt64.toNat_ofNat']
      exact Nat.mod_eq_of_lt (by omega)
    · rw [if_neg hi]
      have := get_scaled cfg sh k i
      rw [if_neg hi] at this
      exact weightOf_none this
  have hpass : Spec.HandedOver (Aggregator.new cfg ps) (.agg rng (Spec.scaled cfg sh k)) := by
    refine ⟨hidx, fun i x w hx h0 => ?_, fun i => ?_⟩
    · have h1 := weightOf_some hx
      rw [h0, hw, get_scaled] at *
      split at hx
      · rename_i hi
        rw [if_pos hi] at h1
        have : (0 : UInt64).toNat = 0 := rfl
        omega
      · cases hx
    · have h0 : Spec.weightOf (Aggregator.new cfg ps : Aggregator r G1 G2).tx i = 0 := rfl
      rw [h0, hw]
      split <;> omega
  have ha : Spec.testedRun S m (Aggregator.new cfg ps) [.agg rng (Spec.scaled cfg sh k)] = ⟨cfg, ps, Spec.scaled cfg sh k⟩ := by
    show Spec.tested S m _ _ = _
    unfold Spec.tested
    rw [if_pos hpass, hrec]
  intro op a
  have ha' : a.tx = Spec.scaled cfg sh k := congrArg Aggregator.tx ha
  refine ⟨hpass, by rw [hrec], ?_, fun ag h0 hsane => ?_, ?_⟩
  · rw [ha', hw, if_pos rfl]
  · have := hsane.room sh.participantId
    rw [ha', hw, if_pos rfl] at this
    omega
  · refine (C118_share S hS m cfg ps hn hcap ht [op] (by show 0 + 2 < 2 ^ 63; norm_num) sh p hg rng' fun x w hx => ?_).1
    have hx' : (Spec.scaled cfg sh k).contributions.get sh.participantId = some (x, w) := by rw [← ha']; exact hx
    rw [get_scaled, if_pos rfl] at hx'
    obtain ⟨rfl, -⟩ := Prod.mk.inj (Option.some.inj hx')
    rfl

/-! ### Concrete cases -/

/-- The transcripts that refute C62, C63 and C35 do not pass the tests. -/
example (sh : PVSSShare 13 (ZMod 13) (ZMod 13)) :
    ¬ Spec.Sane Toy.agg (Spec.scaled Toy.cfg sh (2 ^ 64 - 1)) ∧ ¬ Spec.Sane Toy.agg (Spec.scaled Toy.cfg sh 0) ∧
    ¬ Spec.Sane (⟨Toy.cfg, Toy.parties, AggShare.empty 1 2⟩ : Aggregator 13 (ZMod 13) (ZMod 13)) Toy.outOfRange := by
  refine ⟨fun h => ?_, fun h => ?_, fun h => ?_⟩
  · have h1 := h.room sh.participantId
    have h2 : (Spec.scaled Toy.cfg sh (2 ^ 64 - 1)).contributions.get sh.participantId = some (sh.signedProof, UInt64.ofNat (2 ^ 64 - 1)) := by
      rw [get_scaled, if_pos rfl]
    rw [weightOf_some h2] at h1
    have h3 : (UInt64.ofNat (2 ^ 64 - 1)).toNat = 2 ^ 64 - 1 := rfl
    omega
  · exact h.pos sh.participantId sh.signedProof 0 (by rw [get_scaled, if_pos rfl]; rfl) rfl
  · exact absurd (h.ids 5 _ rfl) (by decide)

/-- An execution of the concrete network in every build mode with two shares and two transcripts, not all of them identical. -/
example : ∃ sh p, Spec.Setting (Toy.suite 13) Toy.cfg Toy.parties [(sh, p)] ∧ ∀ m,
    (Spec.Net.start Toy.cfg Toy.parties).testedRun (Toy.suite 13) m [sh]
      [.share 0 (fun _ => 1) 0, .post 0, .share 0 (fun _ => 2) 0, .merge 3 (fun _ => 0) 0, .post 0, .merge 3 (fun _ => 5) 1] =
    (Spec.Net.start Toy.cfg Toy.parties).run (Toy.suite 13) m [sh]
      [.share 0 (fun _ => 1) 0, .post 0, .share 0 (fun _ => 2) 0, .merge 3 (fun _ => 0) 0, .post 0, .merge 3 (fun _ => 5) 1] := by
  obtain ⟨sh, p, -, hE⟩ := Toy.setting
  exact ⟨sh, p, hE, fun m => C118_same (Toy.suite 13) (Toy.pairLaws 13) m Toy.cfg Toy.parties _ hE _
    (by norm_num [Spec.shareCount, Spec.mergeCount]) (by norm_num [Spec.shareCount])⟩

/-- The share received twice, in every build mode: its weight is 2. -/
example (m : Mode) (rng rng' : Rng 13) : ∃ sh, sh.core = Toy.core52 ∧
    Spec.weightOf (Spec.testedRun (Toy.suite 13) m Toy.agg [.share rng sh, .share rng' sh]).tx sh.participantId = 2 := by
  obtain ⟨sh, p, hg, -, hcore, -⟩ := Toy.gs_ne
  refine ⟨sh, hcore, ?_⟩
  have h1 := (C118_share (Toy.suite 13) (Toy.pairLaws 13) m Toy.cfg Toy.parties (by decide) (by decide) (by decide) []
    (by norm_num [Spec.shareOps]) sh p hg rng (fun x w hx => by cases hx)).1
  have e1 : Spec.testedRun (Toy.suite 13) m Toy.agg [.share rng sh] = (Toy.agg.step (Toy.suite 13) m (.share rng sh)).2 := if_pos trivial
  obtain ⟨_, tx, -, h3, h4⟩ := (receiveShare_ok_iff (Toy.suite 13) m Toy.agg _ rng sh).1 (Prod.ext h1 rfl)
  have hget : tx.contributions.get sh.participantId = some (sh.signedProof, 1) := by
    have := ((aggregate_iff _ _ _ _).1 h3).2.2.2.2.2.1 sh.participantId hg.id_lt
    rw [show Toy.agg.tx.contributions.get sh.participantId = none from rfl, mergeVal_none_left, get_ofShare, if_pos rfl] at this
    exact (Res.ok.inj this).symm
  have e2 : (Spec.testedRun (Toy.suite 13) m Toy.agg [.share rng sh]).tx = tx := by
    rw [e1]
    exact congrArg Aggregator.tx h4
  have h2 := (C118_share (Toy.suite 13) (Toy.pairLaws 13) m Toy.cfg Toy.parties (by decide) (by decide) (by decide) [.share rng sh]
    (by norm_num [Spec.shareOps]) sh p hg rng' (fun x w hx => by
      have hx' : tx.contributions.get sh.participantId = some (x, w) := by rw [← e2]; exact hx
      rw [hget] at hx'
      obtain ⟨rfl, -⟩ := Prod.mk.inj (Option.some.inj hx')
      rfl)).1
  have m2 := C118_merge (Toy.suite 13) (Toy.pairLaws 13) m Toy.cfg Toy.parties (by decide) (by decide) [.share rng sh]
    (by norm_num [Spec.shareOps]) (.share rng' sh) trivial (Or.inr h2)
  have e3 : Spec.testedRun (Toy.suite 13) m Toy.agg [.share rng sh, .share rng' sh] =
      ((Spec.testedRun (Toy.suite 13) m Toy.agg [.share rng sh]).step (Toy.suite 13) m (.share rng' sh)).2 := by
    show Spec.tested _ _ (Spec.tested _ _ _ _) _ = _
    unfold Spec.tested
    exact if_pos trivial
  rw [e3]
  refine (m2.1 sh.participantId).trans ?_
  have e4 : Spec.weightOf (Spec.testedRun (Toy.suite 13) m (Aggregator.new Toy.cfg Toy.parties) [.share rng sh]).tx sh.participantId = 1 := by
    have : (Spec.testedRun (Toy.suite 13) m (Aggregator.new Toy.cfg Toy.parties) [.share rng sh]).tx = tx := e2
    rw [this, weightOf_some hget]
    rfl
  rw [e4, Spec.opWeight, if_pos rfl]

end Verif
