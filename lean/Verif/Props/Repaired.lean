import Verif.Props.Guard
import Verif.Props.Tested
import Verif.Props.Strict

/-!
# The repairs together, from bytes on the wire to the secret: C125

C114 (every slot is checked), C118 (three tests on listed contributions) and C123 (three tests when reading) repair different gaps. Here they
are in front of one unchanged aggregator, and messages arrive as bytes.
-/

open Finset Polynomial
open scoped ENNReal

set_option linter.unusedSectionVars false

namespace Verif

open Sampler

section
variable {r : ℕ} [Fact r.Prime] {G1 G2 K : Type}
  [AddCommGroup G1] [DecidableEq G1] [AddCommGroup G2] [DecidableEq G2] [CommMonoid K] [DecidableEq K]
  [Module (ZMod r) G1] [Module (ZMod r) G2]

/-- The message that the bytes of a share (left) or transcript (right) stand for. Bytes that are left over are not let through. -/
def Spec.received (S : Suite r G1 G2 K) : List UInt8 ⊕ List UInt8 → Option (PVSSShare r G1 G2 ⊕ AggShare r G1 G2)
  | .inl l => match (Spec.strictShare S).dec l with
    | .ok (sh, []) => some (.inl sh)
    | _ => none
  | .inr l => match (Spec.strictAgg S).dec l with
    | .ok (ag, []) => some (.inr ag)
    | _ => none

/-- The call for a message. -/
def Spec.callFor (rng : Rng r) : PVSSShare r G1 G2 ⊕ AggShare r G1 G2 → Op r G1 G2
  | .inl sh => .share rng sh
  | .inr ag => .agg rng ag

open Classical in
/-- A call behind the check of every slot and the tests of the contributions. -/
noncomputable def Spec.repaired (S : Suite r G1 G2 K) (m : Mode) (a : Aggregator r G1 G2) (op : Op r G1 G2) : Aggregator r G1 G2 :=
  if Spec.SlotsPass S a (Spec.coreOf op) ∧ Spec.HandedOver a op then (a.step S m op).2 else a

/-- What an aggregator does with bytes. -/
noncomputable def Spec.onWire (S : Suite r G1 G2 K) (m : Mode) (a : Aggregator r G1 G2) (rng : Rng r) (l : List UInt8 ⊕ List UInt8) :
    Aggregator r G1 G2 :=
  match Spec.received S l with
  | some x => Spec.repaired S m a (Spec.callFor rng x)
  | none => a

/-- Bytes delivered to the aggregators `N`, one after the other. -/
noncomputable def Spec.deliverBytes (S : Suite r G1 G2 K) (m : Mode) (N : ℕ → Aggregator r G1 G2) :
    List (ℕ × Rng r × (List UInt8 ⊕ List UInt8)) → ℕ → Aggregator r G1 G2
  | [] => N
  | (j, rng, l) :: calls => Spec.deliverBytes S m (Function.update N j (Spec.onWire S m (N j) rng l)) calls

/-- What is certain of a transcript: its books are in order, every encryption is correct, and its bytes are read as this transcript. -/
structure Spec.Certain (S : Suite r G1 G2 K) (cfg : Config G1 G2) (ps : BMap (Participant G1)) (k : ℕ) (tx : AggShare r G1 G2) : Prop where
  books : Spec.Books S cfg ps k tx
  encs : Spec.AllEncOk S cfg.srs.g2 ps cfg.numParticipants tx.core
  bytes : Spec.received S (.inr ((AggShare.codec S).enc tx)) = some (.inr tx)

/-! ### one call -/

theorem step_encOk {S : Suite r G1 G2 K} (hS : PairLaws S) (m : Mode) {a : Aggregator r G1 G2} (op : Op r G1 G2)
    (h : Spec.AllEncOk S a.config.srs.g2 a.participants a.config.numParticipants a.tx.core)
    (hop : Spec.SlotsPass S a (Spec.coreOf op)) :
    Spec.AllEncOk S a.config.srs.g2 a.participants a.config.numParticipants (a.step S m op).2.tx.core := by
  have hop := (C107_slots S hS _ _).1 hop
  have hadd : ∀ b c, Spec.AllEncOk S a.config.srs.g2 a.participants a.config.numParticipants b → a.tx.core.aggregate b = .ok c →
      Spec.AllEncOk S a.config.srs.g2 a.participants a.config.numParticipants c := by
    intro b c hb hcore i hi
    obtain ⟨q, hq, e1⟩ := h i hi
    obtain ⟨q', hq', e2⟩ := hb i hi
    rw [hq] at hq'
    obtain rfl := Option.some.inj hq'
    exact ⟨q, hq, encOk_add hS hcore e1 e2⟩
  rcases step_ok_cases S m a op with h4 | ⟨_, _, s, tx', rfl, -, h5, h6⟩ | ⟨_, _, ag, tx', rfl, -, h5, h6⟩
  · rw [h4]; exact h
  · rw [h6]
    obtain ⟨-, -, -, -, hcore, -, -⟩ := (aggregate_iff _ _ _ _).1 h5
    exact hadd _ _ hop hcore
  · rw [h6]
    obtain ⟨-, -, -, -, hcore, -, -⟩ := (aggregate_iff _ _ _ _).1 h5
    exact hadd _ _ hop hcore

theorem shareOps_le_one (op : Op r G1 G2) : Spec.shareOps [op] ≤ 1 := by
  cases op <;> simp [Spec.shareOps]

theorem Spec.Books.mono {S : Suite r G1 G2 K} {cfg : Config G1 G2} {ps : BMap (Participant G1)} {k k' : ℕ} {tx : AggShare r G1 G2}
    (h : Spec.Books S cfg ps k tx) (hk : k ≤ k') : Spec.Books S cfg ps k' tx :=
  ⟨h.inv, h.pos, fun i => (h.bound i).trans (by omega)⟩

/-- What one aggregator keeps up; the codeword only as long as no call is fooled. -/
structure Keeps (S : Suite r G1 G2 K) (cfg : Config G1 G2) (ps : BMap (Participant G1)) (k : ℕ) (F : Prop) (a : Aggregator r G1 G2) : Prop where
  config : a.config = cfg
  parts : a.participants = ps
  books : Spec.Books S cfg ps k a.tx
  encs : Spec.AllEncOk S cfg.srs.g2 ps cfg.numParticipants a.tx.core
  code : F → Spec.Codeword r cfg.degree a.tx.core.comms

theorem keeps_new (S : Suite r G1 G2 K) (hS : PairLaws S) (cfg : Config G1 G2) (ps : BMap (Participant G1))
    (hreg : ∀ i < cfg.numParticipants, ps.get i ≠ none) (F : Prop) : Keeps S cfg ps 0 F (Aggregator.new cfg ps) :=
  ⟨rfl, rfl, ⟨txInv_empty S cfg ps, (fun i x w hx => by cases hx), fun i => Nat.zero_le _⟩,
    run_encOk S hS .checked cfg ps hreg [] (by simp), fun _ => codeword_new cfg ps⟩

theorem keeps_onWire {S : Suite r G1 G2 K} (hS : PairLaws S) (m : Mode) {cfg : Config G1 G2} {ps : BMap (Participant G1)} {k : ℕ} {F : Prop}
    {a : Aggregator r G1 G2} (h : Keeps S cfg ps k F a) (hn : cfg.numParticipants ≤ r) (h64 : cfg.numParticipants < 2 ^ 64)
    (hk : k + 1 < 2 ^ 63) (rng : Rng r) (l : List UInt8 ⊕ List UInt8)
    (hF : F → ∀ x, Spec.received S l = some x → ¬ Spec.Fooled m cfg.numParticipants cfg.degree (Spec.callFor rng x)) :
    Keeps S cfg ps (k + 1) F (Spec.onWire S m a rng l) := by
  obtain ⟨rfl, rfl, hb, he, hc⟩ := h
  have hsame : Keeps S a.config a.participants (k + 1) F a := ⟨rfl, rfl, hb.mono (by omega), he, hc⟩
  unfold Spec.onWire
  split
  · rename_i x hx
    unfold Spec.repaired
    split
    · rename_i hp
      obtain ⟨-, k1, k2⟩ := C19 S m a (Spec.callFor rng x)
      refine ⟨k1, k2, ?_, step_encOk hS m _ he hp.1, fun hf => ?_⟩
      · have := shareOps_le_one (Spec.callFor rng x)
        exact (tested_step hS m _ hn h64 hb hk hp.2).1.mono (by omega)
      · exact run_codeword S hS m [Spec.callFor rng x] a (hc hf) fun op hop => by
          obtain rfl := List.mem_singleton.1 hop
          exact hF hf x hx
    · exact hsame
  · exact hsame

theorem keeps_deliver {S : Suite r G1 G2 K} (hS : PairLaws S) (m : Mode) {cfg : Config G1 G2} {ps : BMap (Participant G1)} {F : Prop}
    (hn : cfg.numParticipants ≤ r) (h64 : cfg.numParticipants < 2 ^ 64) (calls : List (ℕ × Rng r × (List UInt8 ⊕ List UInt8)))
    (hF : F → ∀ e ∈ calls, ∀ x, Spec.received S e.2.2 = some x →
      ¬ Spec.Fooled m cfg.numParticipants cfg.degree (Spec.callFor e.2.1 x)) :
    ∀ (k : ℕ) (N : ℕ → Aggregator r G1 G2), (∀ j, Keeps S cfg ps k F (N j)) → k + calls.length < 2 ^ 63 →
      ∀ j, Keeps S cfg ps (k + calls.length) F (Spec.deliverBytes S m N calls j) := by
  induction calls with
  | nil => exact fun k N hN _ => hN
  | cons e calls ih =>
    obtain ⟨i, rng, l⟩ := e
    intro k N hN hk j
    rw [List.length_cons] at hk
    rw [Spec.deliverBytes, List.length_cons, show k + (calls.length + 1) = k + 1 + calls.length by omega]
    refine ih (fun hf e he => hF hf e (List.mem_cons_of_mem _ he)) (k + 1) _ (fun j => ?_) (by omega) j
    by_cases hj : j = i
    · subst hj
      rw [Function.update_self]
      exact keeps_onWire hS m (hN j) hn h64 (by omega) rng l fun hf => hF hf _ List.mem_cons_self
    · rw [Function.update_of_ne hj]
      obtain ⟨h1, h2, h3, h4, h5⟩ := hN j
      exact ⟨h1, h2, h3.mono (by omega), h4, h5⟩

/-! ### what follows for a transcript -/

/-- A map with keys below `n` has at most `n` entries. -/
theorem entries_length_le {V : Type} (c : BMap V) {n : ℕ} (h : ∀ i v, c.get i = some v → i < n) : c.entries.length ≤ n := by
  have hnd : (c.entries.map Prod.fst).Nodup := by
    rw [List.Nodup, List.pairwise_map]
    exact c.2.imp fun h => Nat.ne_of_lt h
  have := card_le_card (s := (c.entries.map Prod.fst).toFinset) (t := range n) (by
    intro i hi
    obtain ⟨e, he, rfl⟩ := List.mem_map.1 (List.mem_toFinset.1 hi)
    exact mem_range.2 (h e.1 e.2 ((BMap.mem_entries c).1 he)))
  rwa [List.toFinset_card_of_nodup hnd, List.length_map, card_range] at this

theorem aggFits_of_inv {S : Suite r G1 G2 K} {cfg : Config G1 G2} {ps : BMap (Participant G1)} {tx : AggShare r G1 G2}
    (h : Spec.TxInv S cfg ps tx) (hn : cfg.numParticipants < 2 ^ 64) (ht : cfg.degree < 2 ^ 64) : Spec.AggFits tx := by
  have hids : ∀ i v, tx.contributions.get i = some v → i < cfg.numParticipants := fun i v hv => (h.contribs i v.1 v.2 hv).1
  refine ⟨by rw [h.num]; exact hn, by rw [h.degree]; exact ht, ⟨by rw [h.encs_length]; exact hn, by rw [h.comms_length]; exact hn⟩,
    (entries_length_le _ hids).trans_lt hn, fun e he => (hids e.1 e.2 ((BMap.mem_entries _).1 he)).trans hn⟩

theorem received_agg {S : Suite r G1 G2 K} {n1 n2 nf : ℕ} (h : Spec.PointDecoders S) (hC : CodecLaws S n1 n2 nf) (hf : S.frC.Canonical)
    {tx : AggShare r G1 G2} (hfit : Spec.AggFits tx) : Spec.received S (.inr ((AggShare.codec S).enc tx)) = some (.inr tx) := by
  obtain ⟨-, -, -, -, -, -, -, ha⟩ := C123 S n1 n2 nf h hC hf
  have := (ha.2 ((AggShare.codec S).enc tx) tx []).2 ⟨hfit, by rw [List.append_nil]; rfl⟩
  simp only [Spec.received, this]

theorem received_share {S : Suite r G1 G2 K} {n1 n2 nf : ℕ} (h : Spec.PointDecoders S) (hC : CodecLaws S n1 n2 nf) (hf : S.frC.Canonical)
    {sh : PVSSShare r G1 G2} (hid : sh.participantId < 2 ^ 64) (hfit : Spec.CoreFits sh.core) :
    Spec.received S (.inl ((PVSSShare.codec S).enc sh)) = some (.inl sh) := by
  obtain ⟨-, -, -, -, -, -, hs, -⟩ := C123 S n1 n2 nf h hC hf
  have := (hs.2 ((PVSSShare.codec S).enc sh) sh []).2 ⟨⟨hid, hfit⟩, by rw [List.append_nil]; rfl⟩
  simp only [Spec.received, this]

theorem keyTable_of_reg {ps : BMap (Participant G1)} {n : ℕ} (hreg : ∀ i < n, ps.get i ≠ none) : ∃ pk, Spec.KeyTable ps n pk := by
  have hk : ∀ i, ∃ pk, i < n → ∃ q, ps.get i = some q ∧ q.pkSig = pk := by
    intro i
    cases hg : ps.get i with
    | none => exact ⟨0, fun hi => absurd hg (hreg i hi)⟩
    | some q => exact ⟨q.pkSig, fun _ => ⟨q, rfl, rfl⟩⟩
  choose pk hpk using hk
  exact ⟨pk, fun i hi => hpk i hi⟩

theorem healthy_of_inv {S : Suite r G1 G2 K} (hS : PairLaws S) {cfg : Config G1 G2} {ps : BMap (Participant G1)} {tx : AggShare r G1 G2}
    (hinv : Spec.TxInv S cfg ps tx) (henc : Spec.AllEncOk S cfg.srs.g2 ps cfg.numParticipants tx.core)
    (hcw : Spec.Codeword r cfg.degree tx.core.comms) (hreg : ∀ i < cfg.numParticipants, ps.get i ≠ none)
    (ht : cfg.degree + 2 ≤ cfg.numParticipants) (hn : cfg.numParticipants ≤ r) (hcap : cfg.numParticipants < 2 ^ 58) :
    Spec.Healthy S cfg ps tx := by
  have hl := hinv.comms_length
  refine ⟨fun peer m rng hpc hpp => ?_, fun sk ids ds hsel hsk hd => ?_⟩
  · subst hpc hpp
    refine (accepts_iff S hS peer tx hinv hn hcap ht m rng).2 ⟨?_, ?_⟩
    · exact ((ensureDegree_iff m rng _ _ (by omega) (by omega) (by omega)).1
        (C12_group m rng peer.config.degree _ hcw (by omega) (by omega) (by omega))).1
    · obtain ⟨pk, hpk⟩ := keyTable_of_reg hreg
      refine ⟨pk, hpk, batchEq_of_encOk hS hinv.encs_length hinv.comms_length (fun i hi => ?_) _⟩
      obtain ⟨q, hq, he⟩ := henc i hi
      obtain ⟨q', hq', hp⟩ := hpk i hi
      rw [hq] at hq'
      obtain rfl := Option.some.inj hq'
      rw [← hp]
      exact he
  · have hok : ∀ i ∈ ids, Spec.EncOk S cfg.srs.g2 (sk i • cfg.srs.g1) tx.core i := by
      intro i hi
      obtain ⟨q, hq, he⟩ := henc i (hsel.lt i hi)
      obtain ⟨q', hq', hp⟩ := (hsk i hi).2
      rw [hq] at hq'
      obtain rfl := Option.some.inj hq'
      rw [← hp]
      exact he
    have hsk0 : ∀ i ∈ ids, sk i ≠ 0 := fun i hi => (hsk i hi).1
    clear hsk
    rw [decrypted_origins hd]
    obtain ⟨s, h1, -, h2, -⟩ := C79 .checked S hS cfg.srs.g1 cfg.srs.g2 cfg.degree tx.core.comms hcw (by omega) _ hinv.interp ids
      (ds.map (·.dec)) (by rw [hl]; exact hsel) (by
        unfold Spec.Checked
        unfold Spec.Decrypted at hd
        clear hsel
        induction hd with
        | nil => exact .nil
        | cons hab _ ih =>
          rename_i i d ids' ds' _
          refine .cons ?_ (ih (fun j hj => hok j (by simp [hj])) fun j hj => hsk0 j (by simp [hj]))
          have hdec : (DecryptedShare.generate tx.core.encs (sk i) i : Res PVSSError _) = .ok d :=
            ((C05 tx.core.encs (sk i) i).2.1 d).2 ⟨hsk0 i (by simp), hab.1, hab.2⟩
          obtain ⟨c, h3, -, h4, -⟩ := C60 S hS cfg.srs.g1 cfg.srs.g2 (sk i) tx.core i (hok i (by simp)) d hdec
          exact ⟨c, 0, h3, h4 0⟩)
    exact ⟨s, h1, h2⟩

/-! ### C125 -/

/-- **C125** (certain). Whatever bytes are delivered to whichever aggregators, whatever is drawn, and in every build mode: the books of every
aggregator are in order, all its encryptions are correct, and the bytes of its transcript are read by everybody as this transcript. -/
theorem C125 (S : Suite r G1 G2 K) (hS : PairLaws S) {n1 n2 nf : ℕ} (hD : Spec.PointDecoders S) (hC : CodecLaws S n1 n2 nf)
    (hf : S.frC.Canonical) (m : Mode) (cfg : Config G1 G2) (ps : BMap (Participant G1))
    (hreg : ∀ i < cfg.numParticipants, ps.get i ≠ none) (hn : cfg.numParticipants ≤ r) (h64 : cfg.numParticipants < 2 ^ 64)
    (ht : cfg.degree < 2 ^ 64) (calls : List (ℕ × Rng r × (List UInt8 ⊕ List UInt8))) (hk : calls.length < 2 ^ 63) (j : ℕ) :
    Spec.Certain S cfg ps calls.length (Spec.deliverBytes S m (fun _ => Aggregator.new cfg ps) calls j).tx := by
  have h := keeps_deliver hS m (F := False) hn h64 calls (fun h => h.elim) 0 (fun _ => Aggregator.new cfg ps)
    (fun _ => keeps_new S hS cfg ps hreg _) (by omega) j
  rw [zero_add] at h
  exact ⟨h.books, h.encs, received_agg hD hC hf (aggFits_of_inv h.books.inv h64 ht)⟩

/-- **C125** (bytes and messages). Bytes are received as a message exactly if they are what the code writes for it and its numbers fit in 64
bits. An aggregator that changes has received a message so, which passed check and tests and which the code accepted, and it is then as the
code leaves it. -/
theorem C125_wire (S : Suite r G1 G2 K) {n1 n2 nf : ℕ} (hD : Spec.PointDecoders S) (hC : CodecLaws S n1 n2 nf) (hf : S.frC.Canonical) :
    (∀ l x, Spec.received S (.inl l) = some x ↔
      ∃ sh, x = .inl sh ∧ l = (PVSSShare.codec S).enc sh ∧ sh.participantId < 2 ^ 64 ∧ Spec.CoreFits sh.core) ∧
    (∀ l x, Spec.received S (.inr l) = some x ↔ ∃ ag, x = .inr ag ∧ l = (AggShare.codec S).enc ag ∧ Spec.AggFits ag) ∧
    ∀ (m : Mode) (a : Aggregator r G1 G2) (rng : Rng r) (l : List UInt8 ⊕ List UInt8), Spec.onWire S m a rng l ≠ a →
      ∃ x, Spec.received S l = some x ∧ Spec.SlotsPass S a (Spec.coreOf (Spec.callFor rng x)) ∧ Spec.HandedOver a (Spec.callFor rng x) ∧
        a.step S m (Spec.callFor rng x) = (.ok (), Spec.onWire S m a rng l) := by
  obtain ⟨-, -, -, -, -, -, hs, ha⟩ := C123 S n1 n2 nf hD hC hf
  refine ⟨fun l x => ⟨fun h => ?_, ?_⟩, fun l x => ⟨fun h => ?_, ?_⟩, fun m a rng l h => ?_⟩
  · simp only [Spec.received] at h
    split at h
    · rename_i sh hd
      obtain ⟨⟨h1, h2⟩, h3⟩ := (hs.2 _ _ _).1 hd
      rw [List.append_nil] at h3
      exact ⟨sh, (Option.some.inj h).symm, h3, h1, h2⟩
    · cases h
  · rintro ⟨sh, rfl, rfl, h1, h2⟩
    exact received_share hD hC hf h1 h2
  · simp only [Spec.received] at h
    split at h
    · rename_i ag hd
      obtain ⟨h1, h2⟩ := (ha.2 _ _ _).1 hd
      rw [List.append_nil] at h2
      exact ⟨ag, (Option.some.inj h).symm, h2, h1⟩
    · cases h
  · rintro ⟨ag, rfl, rfl, h⟩
    exact received_agg hD hC hf h
  · revert h
    unfold Spec.onWire
    split
    · rename_i x hx
      unfold Spec.repaired
      split
      · rename_i hp
        intro h
        refine ⟨x, hx, hp.1, hp.2, ?_⟩
        rcases step_ok_cases S m a (Spec.callFor rng x) with h4 | ⟨_, _, s, tx', hop, h4, h5, h6⟩ | ⟨_, _, ag, tx', hop, h4, h5, h6⟩
        · exact absurd h4 h
        · rw [h6]
          rw [hop] at h6 ⊢
          exact Prod.ext ((receiveShare_ok_iff _ _ _ _ _ _).2 ⟨_, _, h4, h5, rfl⟩ ▸ rfl) h6
        · rw [h6]
          rw [hop] at h6 ⊢
          exact Prod.ext ((receiveAgg_ok_iff _ _ _ _ _ _).2 ⟨_, _, h4, h5, rfl⟩ ▸ rfl) h6
      · exact fun h => absurd rfl h
    · exact fun h => absurd rfl h

/-- **C125** (nothing is taken back). Whatever is delivered later, who is listed by an aggregator stays listed with the same proof, and no
weight decreases. -/
theorem C125_lasting (S : Suite r G1 G2 K) (hS : PairLaws S) (m : Mode) (cfg : Config G1 G2) (ps : BMap (Participant G1))
    (hreg : ∀ i < cfg.numParticipants, ps.get i ≠ none) (hn : cfg.numParticipants ≤ r) (h64 : cfg.numParticipants < 2 ^ 64)
    (calls more : List (ℕ × Rng r × (List UInt8 ⊕ List UInt8))) (hk : calls.length + more.length < 2 ^ 63) (j i : ℕ)
    (x : SignedProof r G2) (w : UInt64)
    (hx : (Spec.deliverBytes S m (fun _ => Aggregator.new cfg ps) calls j).tx.contributions.get i = some (x, w)) :
    ∃ w', (Spec.deliverBytes S m (fun _ => Aggregator.new cfg ps) (calls ++ more) j).tx.contributions.get i = some (x, w') ∧
      w.toNat ≤ w'.toNat := by
  have happ : ∀ (calls : List (ℕ × Rng r × (List UInt8 ⊕ List UInt8))) N,
      Spec.deliverBytes S m N (calls ++ more) = Spec.deliverBytes S m (Spec.deliverBytes S m N calls) more := by
    intro calls
    induction calls with
    | nil => exact fun N => rfl
    | cons e calls ih => exact fun N => ih _
  rw [happ]
  have key : ∀ (more : List (ℕ × Rng r × (List UInt8 ⊕ List UInt8))) (k : ℕ) (N : ℕ → Aggregator r G1 G2) (w : UInt64),
      (∀ j, Keeps S cfg ps k False (N j)) → k + more.length < 2 ^ 63 → (N j).tx.contributions.get i = some (x, w) →
      ∃ w', (Spec.deliverBytes S m N more j).tx.contributions.get i = some (x, w') ∧ w.toNat ≤ w'.toNat := by
    intro more
    induction more with
    | nil => exact fun k N w _ _ hw => ⟨w, hw, le_rfl⟩
    | cons e more ih =>
      obtain ⟨j', rng, l⟩ := e
      intro k N w hN hk hw
      rw [List.length_cons] at hk
      rw [Spec.deliverBytes]
      have hN' : ∀ j, Keeps S cfg ps (k + 1) False (Function.update N j' (Spec.onWire S m (N j') rng l) j) := by
        intro j
        by_cases hj : j = j'
        · subst hj
          rw [Function.update_self]
          exact keeps_onWire hS m (hN j) hn h64 (by omega) rng l fun h => h.elim
        · rw [Function.update_of_ne hj]
          obtain ⟨h1, h2, h3, h4, h5⟩ := hN j
          exact ⟨h1, h2, h3.mono (by omega), h4, h5⟩
      have hone : ∃ w1, (Function.update N j' (Spec.onWire S m (N j') rng l) j).tx.contributions.get i = some (x, w1) ∧
          w.toNat ≤ w1.toNat := by
        by_cases hj : j = j'
        · subst hj
          rw [Function.update_self]
          unfold Spec.onWire
          split
          · rename_i y hy
            unfold Spec.repaired
            split
            · rename_i hp
              obtain ⟨hc, hps, hb, -, -⟩ := hN j
              rw [← hc, ← hps] at hb
              have ht := (tested_step hS m (Spec.callFor rng y) (by rw [hc]; exact hn) (by rw [hc]; exact h64) hb (by omega) hp.2).2
              by_cases hne : ((N j).step S m (Spec.callFor rng y)).2 = N j
              · rw [hne]
                exact ⟨w, hw, le_rfl⟩
              · obtain ⟨h1, h2⟩ := ht (Or.inl hne)
                obtain ⟨w1, hw1⟩ := h2 i x w hw
                refine ⟨w1, hw1, ?_⟩
                have := h1 i
                rw [weightOf_some hw1, weightOf_some hw] at this
                omega
            · exact ⟨w, hw, le_rfl⟩
          · exact ⟨w, hw, le_rfl⟩
        · rw [Function.update_of_ne hj]
          exact ⟨w, hw, le_rfl⟩
      obtain ⟨w1, h1, h2⟩ := hone
      obtain ⟨w2, h3, h4⟩ := ih (k + 1) _ w1 hN' (by omega) h1
      exact ⟨w2, h3, h2.trans h4⟩
  refine key more calls.length _ w (fun j => ?_) hk hx
  have h := keeps_deliver hS m (F := False) hn h64 calls (fun h => h.elim) 0 (fun _ => Aggregator.new cfg ps)
    (fun _ => keeps_new S hS cfg ps hreg _) (by omega) j
  rwa [zero_add] at h

/-- The deliveries of an adversary that in each step names an aggregator and sends it bytes, knowing the scalars of all earlier steps. -/
def Spec.byteSiege {k L : ℕ} (adv : List (Fin L → ZMod r) → ℕ × (List UInt8 ⊕ List UInt8)) (tail : ℕ → ℕ → ZMod r)
    (c : Fin k → Fin L → ZMod r) : List (ℕ × Rng r × (List UInt8 ⊕ List UInt8)) :=
  List.ofFn fun i : Fin k => ((adv ((List.ofFn c).take i)).1, Spec.withPrefix (c i) (tail i), (adv ((List.ofFn c).take i)).2)

theorem byteSiege_length {k L : ℕ} (adv : List (Fin L → ZMod r) → ℕ × (List UInt8 ⊕ List UInt8)) (tail : ℕ → ℕ → ZMod r)
    (c : Fin k → Fin L → ZMod r) (i : ℕ) : ((Spec.byteSiege adv tail c).take i).length ≤ k := by
  rw [List.length_take]
  refine (min_le_right _ _).trans ?_
  simp [Spec.byteSiege]

theorem keeps_siege (S : Suite r G1 G2 K) (hS : PairLaws S) (m : Mode) (cfg : Config G1 G2) (ps : BMap (Participant G1))
    (hreg : ∀ i < cfg.numParticipants, ps.get i ≠ none) (hn : cfg.numParticipants ≤ r) (h64 : cfg.numParticipants < 2 ^ 64)
    {k L : ℕ} (hk : k < 2 ^ 63) (adv : List (Fin L → ZMod r) → ℕ × (List UInt8 ⊕ List UInt8)) (tail : ℕ → ℕ → ZMod r)
    (c : Fin k → Fin L → ZMod r)
    (hno : ∀ op ∈ Spec.attack (fun l => (Spec.received S (adv l).2).getD (.inr (AggShare.empty 0 0))) tail c,
      ¬ Spec.Fooled m cfg.numParticipants cfg.degree op) (i j : ℕ) :
    Keeps S cfg ps ((Spec.byteSiege adv tail c).take i).length True
      (Spec.deliverBytes S m (fun _ => Aggregator.new cfg ps) ((Spec.byteSiege adv tail c).take i) j) := by
  have hlen := byteSiege_length adv tail c i
  have h := keeps_deliver hS m (F := True) hn h64 ((Spec.byteSiege adv tail c).take i) (fun _ e he x hx => ?_) 0
    (fun _ => Aggregator.new cfg ps) (fun _ => keeps_new S hS cfg ps hreg _) (by omega) j
  · rwa [zero_add] at h
  · have he := List.mem_of_mem_take he
    unfold Spec.byteSiege at he
    rw [List.mem_ofFn] at he
    obtain ⟨i', rfl⟩ := he
    refine hno _ ?_
    unfold Spec.attack
    rw [List.mem_ofFn]
    refine ⟨i', ?_⟩
    simp only at hx
    simp only [hx, Option.getD_some]
    cases x <;> rfl

open Classical in
/-- **C125** (under attack). An adversary who controls the network and all dealers, and sees every scalar drawn, delivers `k` byte strings to
any aggregators. In every build mode, for all but a `k/r` fraction of the draws all transcripts are healthy at all times: every peer accepts
them, and every `t + 1` parties decrypt the secret of the listed contributors. -/
theorem C125_attack (S : Suite r G1 G2 K) (hS : PairLaws S) (m : Mode) (cfg : Config G1 G2) (ps : BMap (Participant G1))
    (hreg : ∀ i < cfg.numParticipants, ps.get i ≠ none)
    (ht : cfg.degree + 2 ≤ cfg.numParticipants) (hn : cfg.numParticipants ≤ r) (hcap : cfg.numParticipants < 2 ^ 58)
    (k L : ℕ) (hk : k < 2 ^ 63) (hL : L = cfg.numParticipants - cfg.degree - 1)
    (adv : List (Fin L → ZMod r) → ℕ × (List UInt8 ⊕ List UInt8)) (tail : ℕ → ℕ → ZMod r) :
    (univ.filter fun c : Fin k → Fin L → ZMod r => ∃ i j, ¬ Spec.Healthy S cfg ps
        (Spec.deliverBytes S m (fun _ => Aggregator.new cfg ps) ((Spec.byteSiege adv tail c).take i) j).tx).card * r
      ≤ k * Fintype.card (Fin k → Fin L → ZMod r) := by
  refine le_trans (Nat.mul_le_mul_right _ (card_le_card ?_))
    (card_fooled (G1 := G1) (G2 := G2) m _ _ ht hn hcap k L hL
      (fun l => (Spec.received S (adv l).2).getD (.inr (AggShare.empty 0 0))) tail)
  intro c hc
  simp only [mem_filter, mem_univ, true_and] at hc ⊢
  by_contra hno
  push Not at hno
  obtain ⟨i, j, hc⟩ := hc
  apply hc
  have h := keeps_siege S hS m cfg ps hreg hn (by omega) hk adv tail c hno i j
  exact healthy_of_inv hS h.books.inv h.encs (h.code trivial) hreg ht hn hcap

/-- **C125** (honest messages). In the honest network of C84 every message passes the check of every slot, and the bytes of every published
share and every posted transcript are read as what they are. So nothing is refused but what C118 refuses: a transcript for want of room. -/
theorem C125_honest (S : Suite r G1 G2 K) (hS : PairLaws S) {n1 n2 nf : ℕ} (hD : Spec.PointDecoders S) (hC : CodecLaws S n1 n2 nf)
    (hf : S.frC.Canonical) (cfg : Config G1 G2) (ps : BMap (Participant G1))
    (E : List (PVSSShare r G1 G2 × (ZMod r)[X])) (hE : Spec.Setting S cfg ps E) (a : Aggregator r G1 G2) (hc : a.config = cfg)
    (hp : a.participants = ps) :
    (∀ e ∈ E, Spec.SlotsPass S a e.1.core ∧ Spec.received S (.inl ((PVSSShare.codec S).enc e.1)) = some (.inl e.1)) ∧
    ∀ tx l, Spec.HonestTx S cfg ps tx l → l ⊆ E → Spec.SlotsPass S a tx.core ∧
      Spec.received S (.inr ((AggShare.codec S).enc tx)) = some (.inr tx) := by
  subst hc hp
  have hcap := hE.cap
  have hdeg := hE.deg
  obtain ⟨pk, hpk⟩ := keyTable_of_reg hE.registered
  constructor
  · intro e he
    have hg := hE.published.good e he
    obtain ⟨pk', hk', hs⟩ := hg.keys
    refine ⟨C114_honest S hS a _ pk' hk' e.2 hs, received_share hD hC hf (by have := hg.id_lt; omega)
      ⟨by rw [hs.encs_length]; omega, by rw [hs.comms_length]; omega⟩⟩
  · intro tx l h hl
    have hw := honest_wellFormed h
    have hids : ∀ i v, tx.contributions.get i = some v → i < a.config.numParticipants := fun i v hv => by
      obtain ⟨⟨e, he, rfl, -⟩, -⟩ := (honest_contribs h).1 i v.1 v.2 hv
      exact (hE.published.good e (hl he)).id_lt
    refine ⟨C114_honest S hS a _ pk hpk _ (honest_shares h hpk), received_agg hD hC hf
      ⟨by rw [hw.num]; omega, by rw [hw.degree]; omega, ⟨by rw [hw.encs_length]; omega, by rw [hw.comms_length]; omega⟩,
        (entries_length_le _ hids).trans_lt (by omega), fun e he => (hids e.1 e.2 ((BMap.mem_entries _).1 he)).trans (by omega)⟩⟩

/-- **C125** (no lock-out). Whatever was delivered before, an aggregator receives a correct share from its bytes, whatever it draws, and counts
it once, unless it lists the dealer with another `gs`, which the dealer has then signed. -/
theorem C125_share (S : Suite r G1 G2 K) (hS : PairLaws S) {n1 n2 nf : ℕ} (hD : Spec.PointDecoders S) (hC : CodecLaws S n1 n2 nf)
    (hf : S.frC.Canonical) (m : Mode) (cfg : Config G1 G2) (ps : BMap (Participant G1))
    (hreg : ∀ i < cfg.numParticipants, ps.get i ≠ none) (ht : cfg.degree + 2 ≤ cfg.numParticipants) (hn : cfg.numParticipants ≤ r)
    (hcap : cfg.numParticipants < 2 ^ 58) (calls : List (ℕ × Rng r × (List UInt8 ⊕ List UInt8))) (hk : calls.length + 1 < 2 ^ 63) (j : ℕ)
    (sh : PVSSShare r G1 G2) (p : (ZMod r)[X]) (hg : Spec.GoodShare S cfg ps sh p) (rng : Rng r) :
    let a := Spec.deliverBytes S m (fun _ => Aggregator.new cfg ps) calls j
    let b := Spec.onWire S m a rng (.inl ((PVSSShare.codec S).enc sh))
    (∃ x w q, a.tx.contributions.get sh.participantId = some (x, w) ∧ x.decompProof.gs ≠ sh.signedProof.decompProof.gs ∧
      ps.get sh.participantId = some q ∧ Spec.SignedOk S cfg.srs.g2 q.pkEd x) ∨
    a.receiveShare S m rng sh = (.ok (), b) ∧
      ∀ i, Spec.weightOf b.tx i = Spec.weightOf a.tx i + if i = sh.participantId then 1 else 0 := by
  intro a b
  have h := keeps_deliver hS m (F := False) hn (by omega) calls (fun h => h.elim) 0 (fun _ => Aggregator.new cfg ps)
    (fun _ => keeps_new S hS cfg ps hreg _) (by omega) j
  rw [zero_add] at h
  obtain ⟨hc, hp, hb, -, -⟩ := h
  change a.config = cfg at hc
  change a.participants = ps at hp
  change Spec.Books S cfg ps _ a.tx at hb
  by_cases hgs : ∀ x w, a.tx.contributions.get sh.participantId = some (x, w) → x.decompProof.gs = sh.signedProof.decompProof.gs
  · right
    obtain ⟨pk, hkt, hs⟩ := hg.keys
    have hid := hg.id_lt
    obtain ⟨rng', hv⟩ := shareVerify_good S hS m a rng sh p (by rw [hc, hp]; exact hg) (by rw [hc]; exact hn) (by rw [hc]; exact hcap)
      (Or.inl (by rw [hc]; exact ht))
    obtain ⟨tx', h2⟩ := aggregatePvssShare_ok m cfg a.tx sh
      ⟨hb.inv.degree, hb.inv.num, hb.inv.encs_length, hb.inv.comms_length, fun x w hx => ⟨hgs x w hx, by
        have := hb.bound sh.participantId
        rw [weightOf_some hx] at this
        omega⟩⟩ (by omega) hs.encs_length hs.comms_length
    have hrec := (receiveShare_ok_iff S m a { a with tx := tx' } rng sh).2 ⟨rng', tx', hv, h2, rfl⟩
    have hb' : b = (a.step S m (.share rng sh)).2 := by
      show Spec.onWire S m a rng _ = _
      unfold Spec.onWire
      rw [received_share hD hC hf (by omega) ⟨by rw [hs.encs_length]; omega, by rw [hs.comms_length]; omega⟩]
      refine if_pos ⟨?_, trivial⟩
      exact C114_honest S hS a _ pk (by rw [hp, hc]; exact hkt) p (by rw [hc]; exact hs)
    have hstep : a.step S m (.share rng sh) = (.ok (), { a with tx := tx' }) := hrec
    refine ⟨by rw [hb', hstep]; exact hrec, ?_⟩
    rw [← hc, ← hp] at hb
    rw [hb']
    exact ((tested_step hS m (.share rng sh) (by rw [hc]; exact hn) (by rw [hc]; omega) hb hk trivial).2 (Or.inr (by rw [hstep]))).1
  · left
    push Not at hgs
    obtain ⟨x, w, hx, hne⟩ := hgs
    obtain ⟨-, q, hq, hsig⟩ := hb.inv.contribs _ _ _ hx
    exact ⟨x, w, q, hx, hne, hq, hsig⟩

/-- Merging succeeds where the recorded `gs` agree and the weights fit. -/
theorem merge_ok {m : Mode} {a b : AggShare r G1 G2} {S : Suite r G1 G2 K} {cfg : Config G1 G2} {ps : BMap (Participant G1)}
    (ha : Spec.TxInv S cfg ps a) (hb : Spec.TxInv S cfg ps b) (hn : 0 < cfg.numParticipants)
    (hgs : ∀ i x w y w', a.contributions.get i = some (x, w) → b.contributions.get i = some (y, w') → x.decompProof.gs = y.decompProof.gs)
    (hfit : ∀ i, Spec.weightOf a i + Spec.weightOf b i < 2 ^ 64) : ∃ c, a.aggregate m b = .ok c := by
  have hcore : ∃ c, a.core.aggregate b.core = .ok c := by
    refine ⟨⟨_, _⟩, (coreAggregate_iff _ _ _).2 ⟨?_, by rw [ha.comms_length, hb.comms_length], by rw [ha.encs_length, hb.encs_length],
      by rw [ha.comms_length, ha.encs_length], rfl, rfl⟩⟩
    intro h
    have := ha.comms_length
    rw [h, List.length_nil] at this
    omega
  obtain ⟨core, hcore⟩ := hcore
  have hv : ∀ i, ∃ v, mergeVal m (a.contributions.get i) (b.contributions.get i) = .ok v := by
    intro i
    cases hx : a.contributions.get i with
    | none => cases b.contributions.get i <;> exact ⟨_, rfl⟩
    | some x =>
      cases hy : b.contributions.get i with
      | none => exact ⟨_, rfl⟩
      | some y =>
        obtain ⟨x, w⟩ := x
        obtain ⟨y, w'⟩ := y
        have hf := hfit i
        rw [weightOf_some hx, weightOf_some hy] at hf
        have hw : ∃ u, (addWeight m w w' : Res PVSSError _) = .ok u := ⟨_, if_pos hf⟩
        obtain ⟨u, hu⟩ := hw
        exact ⟨some (x, u), (mergeVal_some_ok_iff _ _ _ _ _ _).2 ⟨hgs i x w y w' hx hy, u, hu, rfl⟩⟩
  choose v hv using hv
  obtain ⟨c, hc, -⟩ := aggregate_exists core v (by rw [ha.degree, hb.degree]) (by rw [ha.num, hb.num]) hcore fun i _ => hv i
  exact ⟨c, hc⟩

/-- Every aggregator takes over the transcript of every other from its bytes, whatever it draws, unless somebody listed in both has
different `gs` there, or a weight would exceed `2^63`. -/
def Spec.Exchanges (S : Suite r G1 G2 K) (m : Mode) (N : ℕ → Aggregator r G1 G2) : Prop :=
  ∀ j j' rng,
    (∀ i x w y w', (N j').tx.contributions.get i = some (x, w) → (N j).tx.contributions.get i = some (y, w') →
      x.decompProof.gs = y.decompProof.gs) →
    (∀ i, Spec.weightOf (N j').tx i + Spec.weightOf (N j).tx i ≤ 2 ^ 63) →
    ((N j').step S m (.agg rng (N j).tx)).1 = .ok () ∧
    Spec.onWire S m (N j') rng (.inr ((AggShare.codec S).enc (N j).tx)) = ((N j').step S m (.agg rng (N j).tx)).2 ∧
    ∀ i, Spec.weightOf (Spec.onWire S m (N j') rng (.inr ((AggShare.codec S).enc (N j).tx))).tx i =
      Spec.weightOf (N j').tx i + Spec.weightOf (N j).tx i

theorem exchanges_of_keeps {S : Suite r G1 G2 K} (hS : PairLaws S) {n1 n2 nf : ℕ} (hD : Spec.PointDecoders S) (hC : CodecLaws S n1 n2 nf)
    (hf : S.frC.Canonical) (m : Mode) {cfg : Config G1 G2} {ps : BMap (Participant G1)}
    (hreg : ∀ i < cfg.numParticipants, ps.get i ≠ none) (ht : cfg.degree + 2 ≤ cfg.numParticipants) (hn : cfg.numParticipants ≤ r)
    (hcap : cfg.numParticipants < 2 ^ 58) {k : ℕ} (hk : k + 1 < 2 ^ 63) {N : ℕ → Aggregator r G1 G2} (hN : ∀ j, Keeps S cfg ps k True (N j)) :
    Spec.Exchanges S m N := by
  intro j j' rng hgs hroom
  obtain ⟨hc, hp, hb, he, hcw⟩ := hN j
  obtain ⟨hc', hp', hb', he', -⟩ := hN j'
  obtain ⟨rng', hv⟩ := (healthy_of_inv hS hb.inv he (hcw trivial) hreg ht hn hcap).1 (N j') m rng hc' hp'
  obtain ⟨c, hagg⟩ := merge_ok (m := m) hb'.inv hb.inv (by omega) hgs fun i => lt_of_le_of_lt (hroom i) (by norm_num)
  have hstep : (N j').step S m (.agg rng (N j).tx) = (.ok (), { N j' with tx := c }) :=
    (receiveAgg_ok_iff _ _ _ _ _ _).2 ⟨rng', c, hv, hagg, rfl⟩
  have hslots : Spec.SlotsPass S (N j') (N j).tx.core := by
    rw [C107_slots S hS, hc', hp']
    exact he
  have hsane : Spec.HandedOver (N j') (.agg rng (N j).tx) :=
    ⟨fun i v hv => by rw [hc']; exact (hb.inv.contribs i v.1 v.2 hv).1, hb.pos, hroom⟩
  have hwire : Spec.onWire S m (N j') rng (.inr ((AggShare.codec S).enc (N j).tx)) = ((N j').step S m (.agg rng (N j).tx)).2 := by
    unfold Spec.onWire
    rw [received_agg hD hC hf (aggFits_of_inv hb.inv (by omega) (by omega))]
    exact if_pos ⟨hslots, hsane⟩
  refine ⟨by rw [hstep], hwire, fun i => ?_⟩
  rw [hwire]
  rw [← hc', ← hp'] at hb'
  exact ((tested_step hS m _ (by rw [hc']; exact hn) (by rw [hc']; omega) hb' hk hsane).2 (Or.inr (by rw [hstep]))).1 i

open Classical in
/-- **C125** (exchange). For all but a `k/r` fraction of the draws, moreover, all aggregators can exchange their transcripts at all times. -/
theorem C125_exchange (S : Suite r G1 G2 K) (hS : PairLaws S) {n1 n2 nf : ℕ} (hD : Spec.PointDecoders S) (hC : CodecLaws S n1 n2 nf)
    (hf : S.frC.Canonical) (m : Mode) (cfg : Config G1 G2) (ps : BMap (Participant G1))
    (hreg : ∀ i < cfg.numParticipants, ps.get i ≠ none)
    (ht : cfg.degree + 2 ≤ cfg.numParticipants) (hn : cfg.numParticipants ≤ r) (hcap : cfg.numParticipants < 2 ^ 58)
    (k L : ℕ) (hk : k + 1 < 2 ^ 63) (hL : L = cfg.numParticipants - cfg.degree - 1)
    (adv : List (Fin L → ZMod r) → ℕ × (List UInt8 ⊕ List UInt8)) (tail : ℕ → ℕ → ZMod r) :
    (univ.filter fun c : Fin k → Fin L → ZMod r => ∃ i, ¬ Spec.Exchanges S m
        (Spec.deliverBytes S m (fun _ => Aggregator.new cfg ps) ((Spec.byteSiege adv tail c).take i))).card * r
      ≤ k * Fintype.card (Fin k → Fin L → ZMod r) := by
  refine le_trans (Nat.mul_le_mul_right _ (card_le_card ?_))
    (card_fooled (G1 := G1) (G2 := G2) m _ _ ht hn hcap k L hL
      (fun l => (Spec.received S (adv l).2).getD (.inr (AggShare.empty 0 0))) tail)
  intro c hc
  simp only [mem_filter, mem_univ, true_and] at hc ⊢
  by_contra hno
  push Not at hno
  obtain ⟨i, hc⟩ := hc
  exact hc (exchanges_of_keeps hS hD hC hf m hreg ht hn hcap (by have := byteSiege_length adv tail c i; omega)
    (keeps_siege S hS m cfg ps hreg hn (by omega) (by omega) adv tail c hno i))

/-! ### the honest network -/

open Classical in
/-- An event of the network of C84, with check and tests in front of every call. -/
noncomputable def Spec.Net.repairedStep (S : Suite r G1 G2 K) (m : Mode) (D : List (PVSSShare r G1 G2)) (N : Spec.Net r G1 G2)
    (e : Spec.Ev r) : Spec.Net r G1 G2 :=
  if ∀ j op, N.call D e = some (j, op) → Spec.SlotsPass S (N.node j) (Spec.coreOf op) ∧ Spec.HandedOver (N.node j) op then N.step S m D e
  else N

/-- Events of the network, with check and tests in front of every call. -/
noncomputable def Spec.Net.repairedRun (S : Suite r G1 G2 K) (m : Mode) (D : List (PVSSShare r G1 G2)) (N : Spec.Net r G1 G2)
    (evs : List (Spec.Ev r)) : Spec.Net r G1 G2 := evs.foldl (Spec.Net.repairedStep S m D) N

/-- **C125** (honest network). Executions of the honest network go behind all repairs as they go behind the tests of C118; so with `s`
deliveries of shares and `g` of transcripts, `s * 2^g ≤ 2^63`, they go as in the code. -/
theorem C125_network (S : Suite r G1 G2 K) (hS : PairLaws S) (m : Mode) (cfg : Config G1 G2) (ps : BMap (Participant G1))
    (E : List (PVSSShare r G1 G2 × (ZMod r)[X])) (hE : Spec.Setting S cfg ps E) (evs : List (Spec.Ev r))
    (hk : Spec.shareCount evs + 1 < 2 ^ 63) :
    (Spec.Net.start cfg ps).repairedRun S m (E.map (·.1)) evs = (Spec.Net.start cfg ps).testedRun S m (E.map (·.1)) evs ∧
    (Spec.shareCount evs * 2 ^ Spec.mergeCount evs ≤ 2 ^ 63 →
      (Spec.Net.start cfg ps).repairedRun S m (E.map (·.1)) evs = (Spec.Net.start cfg ps).run S m (E.map (·.1)) evs) := by
  have key : ∀ (evs : List (Spec.Ev r)) (k : ℕ) (N : Spec.Net r G1 G2), NetInv S cfg ps E N → (∀ j i, Spec.weightOf (N.node j).tx i ≤ 2 ^ 63 + k) →
      k + Spec.shareCount evs + 1 < 2 ^ 63 →
      N.repairedRun S m (E.map (·.1)) evs = N.testedRun S m (E.map (·.1)) evs := by
    intro evs
    induction evs with
    | nil => exact fun k N _ _ _ => rfl
    | cons e evs ih =>
      intro k N hN hb hlt
      have hsc : Spec.shareCount (e :: evs) = Spec.shareCount [e] + Spec.shareCount evs := by
        cases e <;> simp only [Spec.shareCount] <;> omega
      rw [hsc] at hlt
      obtain ⟨h1, h2, -⟩ := tested_net_step hS hE hN (k := k) (by omega) hb m e
      have hstep : N.repairedStep S m (E.map (·.1)) e = N.testedStep S m (E.map (·.1)) e := by
        classical
        unfold Spec.Net.repairedStep Spec.Net.testedStep
        refine if_congr ⟨fun h j op hc => (h j op hc).2, fun h j op hc => ⟨?_, h j op hc⟩⟩ rfl rfl
        have hfp := netInv_call hN hc
        rw [slotsPass_congr S (b := Aggregator.new cfg ps) (hN.config j) (hN.parts j)]
        obtain ⟨pk, hpk⟩ := keyTable_of_reg hE.registered
        cases op with
        | share rng sh =>
          obtain ⟨e', he', rfl⟩ := hfp
          obtain ⟨pk', hk', hs⟩ := (hE.published.good e' he').keys
          exact C114_honest S hS (Aggregator.new cfg ps) _ pk' hk' e'.2 hs
        | agg rng ag =>
          obtain ⟨l, hl, -⟩ := hfp
          exact C114_honest S hS (Aggregator.new cfg ps) _ pk hpk _ (honest_shares hl hpk)
      have q := ih (k + Spec.shareCount [e]) _ h1 h2 (by omega)
      rw [← hstep] at q
      refine q.trans ?_
      rw [hstep]
      rfl
  have h := key evs 0 (.start cfg ps) (netInv_start S cfg ps E) (fun j i => Nat.zero_le _) (by omega)
  exact ⟨h, fun hs => h.trans (C118_same S hS m cfg ps E hE evs hs hk)⟩

theorem deliver_three (S : Suite r G1 G2 K) (m : Mode) (a : Aggregator r G1 G2) (rng : Rng r) (x y z : List UInt8 ⊕ List UInt8) :
    Spec.deliverBytes S m (fun _ => a) [(4, rng, x), (4, rng, y), (9, rng, z)] 4 = Spec.onWire S m (Spec.onWire S m a rng x) rng y ∧
    Spec.deliverBytes S m (fun _ => a) [(4, rng, x), (4, rng, y), (9, rng, z)] 9 = Spec.onWire S m a rng z :=
  ⟨rfl, rfl⟩

/-- Non-vacuity of C125: the bytes of the share of party 2 with a wrong encryption for party 0 leave aggregator 4 as it was, as do the bytes
of the genuine share followed by one more; the bytes of the genuine share are received by aggregator 9. -/
example : ∃ sh bad : PVSSShare 13 (ZMod 13) (ZMod 13),
    (∃ a', Toy.agg.receiveShare (Toy.suite 13) .checked Toy.rng52 bad = (.ok (), a')) ∧
    (let N := Spec.deliverBytes (Toy.suite 13) .checked (fun _ => Toy.agg)
      [(4, Toy.rng52, .inl ((PVSSShare.codec (Toy.suite 13)).enc bad)), (4, Toy.rng52, .inl ((PVSSShare.codec (Toy.suite 13)).enc sh ++ [0])),
       (9, Toy.rng52, .inl ((PVSSShare.codec (Toy.suite 13)).enc sh))]
    N 4 = Toy.agg ∧ (N 9).tx.core = ⟨[14, 27, 44, 65], [7, 9, 11, 13]⟩) := by
  have hC := Toy.codecLaws 13 (by omega)
  have hP := Toy.pointDecoders 13
  have hf : (Toy.suite 13).frC.Canonical := Toy.frCodec_canonical
  obtain ⟨sh, hcore, hid, -, h⟩ := Toy.accepted52
  obtain ⟨rng', h⟩ := h Toy.rng52
  have h1 := (C16_forge (Toy.suite 13) (Toy.pairLaws 13) .checked Toy.agg Toy.rng52 rng' sh h 0 (by rw [hid]; decide) (by decide) 3).1
  obtain ⟨tx1, h3⟩ := aggregatePvssShare_ok .checked Toy.agg.config Toy.agg.tx
    { sh with core := { sh.core with encs := sh.core.encs.set 0 3 } }
    ⟨rfl, rfl, rfl, rfl, fun x w hx => by cases hx⟩ (by decide) (by rw [hcore]; rfl) (by rw [hcore]; rfl)
  obtain ⟨tx, h2⟩ := aggregatePvssShare_ok .checked Toy.agg.config Toy.agg.tx sh
    ⟨rfl, rfl, rfl, rfl, fun x w hx => by cases hx⟩ (by decide) (by rw [hcore]; rfl) (by rw [hcore]; rfl)
  have hrec : Toy.agg.receiveShare (Toy.suite 13) .checked Toy.rng52 sh = (.ok (), { Toy.agg with tx := tx }) :=
    (receiveShare_ok_iff _ _ _ _ _ _).2 ⟨rng', tx, h, h2, rfl⟩
  obtain ⟨-, -, -, -, hadd, -, -⟩ := (aggregate_iff _ _ _ _).1 h2
  have htx : tx.core = ⟨[14, 27, 44, 65], [7, 9, 11, 13]⟩ := by
    rw [show (AggShare.ofShare Toy.agg.tx.degree Toy.agg.tx.numParticipants sh).core = sh.core from rfl, hcore] at hadd
    refine (Res.ok.inj (hadd.symm.trans ?_))
    show Res.ok _ = Res.ok _
    simp [Toy.agg, Aggregator.new, AggShare.empty, PVSSCore.empty, Toy.cfg, Toy.core52, List.replicate]
  refine ⟨sh, { sh with core := { sh.core with encs := sh.core.encs.set 0 3 } }, ⟨_, (receiveShare_ok_iff _ _ _ _ _ _).2 ⟨rng', tx1, h1, h3, rfl⟩⟩, ?_⟩
  have hbad : ¬ Spec.SlotsPass (Toy.suite 13) Toy.agg { sh.core with encs := sh.core.encs.set 0 3 } := by
    rw [C107_slots _ (Toy.pairLaws 13), hcore]
    intro h
    obtain ⟨q, hq, e, c, he, hc, hp⟩ := h 0 (by decide)
    have : Toy.agg.participants.get 0 = some (Toy.participant 0 (Toy.sk 0)) := rfl
    rw [this] at hq
    cases hq
    cases hc
    cases he
    revert hp
    decide
  have hgood : Spec.SlotsPass (Toy.suite 13) Toy.agg sh.core := by
    rw [hcore]
    refine C114_honest _ (Toy.pairLaws 13) Toy.agg _ Toy.sk ?_ _ Toy.shares52
    intro i hi
    match i, hi with
    | 0, _ => exact ⟨_, rfl, rfl⟩
    | 1, _ => exact ⟨_, rfl, rfl⟩
    | 2, _ => exact ⟨_, rfl, rfl⟩
    | 3, _ => exact ⟨_, rfl, rfl⟩
  have hid64 : sh.participantId < 2 ^ 64 := by rw [hid]; norm_num
  have hfits : Spec.CoreFits sh.core := by rw [hcore]; exact ⟨by decide, by decide⟩
  have w1 : Spec.onWire (Toy.suite 13) .checked Toy.agg Toy.rng52 (.inl ((PVSSShare.codec (Toy.suite 13)).enc
      { sh with core := { sh.core with encs := sh.core.encs.set 0 3 } })) = Toy.agg := by
    unfold Spec.onWire
    rw [received_share (sh := { sh with core := { sh.core with encs := sh.core.encs.set 0 3 } }) hP hC hf hid64
      ⟨by simpa using hfits.1, hfits.2⟩]
    exact if_neg fun h => hbad h.1
  have w2 : Spec.onWire (Toy.suite 13) .checked Toy.agg Toy.rng52 (.inl ((PVSSShare.codec (Toy.suite 13)).enc sh ++ [0])) = Toy.agg := by
    obtain ⟨-, -, -, -, -, -, hs, -⟩ := C123 (Toy.suite 13) 32 32 32 hP hC hf
    have hd := (hs.2 ((PVSSShare.codec (Toy.suite 13)).enc sh ++ [0]) sh [0]).2 ⟨⟨hid64, hfits⟩, rfl⟩
    unfold Spec.onWire
    simp only [Spec.received, hd]
  have w3 : Spec.onWire (Toy.suite 13) .checked Toy.agg Toy.rng52 (.inl ((PVSSShare.codec (Toy.suite 13)).enc sh)) = { Toy.agg with tx := tx } := by
    unfold Spec.onWire
    rw [received_share hP hC hf hid64 hfits]
    exact (if_pos ⟨hgood, trivial⟩).trans (congrArg Prod.snd hrec)
  have h := deliver_three (Toy.suite 13) .checked Toy.agg Toy.rng52 (.inl ((PVSSShare.codec (Toy.suite 13)).enc
      { sh with core := { sh.core with encs := sh.core.encs.set 0 3 } })) (.inl ((PVSSShare.codec (Toy.suite 13)).enc sh ++ [0]))
      (.inl ((PVSSShare.codec (Toy.suite 13)).enc sh))
  rw [w1, w2, w3] at h
  exact ⟨h.1, (congrArg (fun a => a.tx.core) h.2).trans htx⟩

end

/-! ### With the real generator at BLS12-381 -/

/-- As `Spec.byteSiege`, the draws as lists. -/
def Spec.byteSiegeList {r : ℕ} [Fact r.Prime] (adv : List (List (ZMod r)) → ℕ × (List UInt8 ⊕ List UInt8))
    (tail : ℕ → Rng r) (cs : List (List (ZMod r))) : List (ℕ × Rng r × (List UInt8 ⊕ List UInt8)) :=
  cs.mapIdx fun i c => ((adv (cs.take i)).1, Spec.tape c (tail i), (adv (cs.take i)).2)

theorem byteSiegeList_ofFn {r k L : ℕ} [Fact r.Prime] (adv : List (List (ZMod r)) → ℕ × (List UInt8 ⊕ List UInt8))
    (tail : ℕ → Rng r) (c : Fin k → Fin L → ZMod r) :
    Spec.byteSiegeList adv tail (List.ofFn fun i => List.ofFn (c i)) = Spec.byteSiege (fun l => adv (l.map List.ofFn)) tail c := by
  unfold Spec.byteSiegeList Spec.byteSiege
  refine List.ext_getElem (by simp) fun i h1 h2 => ?_
  simp only [List.getElem_mapIdx, List.getElem_ofFn, tape_ofFn, List.map_take, List.map_ofFn, Function.comp_def]

/-- **C125** (BLS12-381). At the curve the code is used with, with any bilinear non-degenerate pairing, any streams and signatures: an
adversary who delivers `k` byte strings to aggregators that draw with `Scalar::rand` brings about a transcript that is not healthy, or
aggregators that cannot exchange their transcripts, with probability at most `k / r` each; all else is certain (`C125`). -/
theorem C125_bls {K : Type} [CommMonoid K] [DecidableEq K] (pair : BlsG1 → BlsG2 → K) (stream : List UInt8 → List UInt8 → ℕ → UInt8)
    (shake : List UInt8 → Bytes 32) (ed : EdOps) (hS : PairLaws (arkSuite pair stream shake ed)) (m : Mode) (cfg : Config BlsG1 BlsG2)
    (ps : BMap (Participant BlsG1)) (hreg : ∀ i < cfg.numParticipants, ps.get i ≠ none)
    (ht : cfg.degree + 2 ≤ cfg.numParticipants) (hcap : cfg.numParticipants < 2 ^ 58) (k : ℕ) (hk : k + 1 < 2 ^ 63)
    (adv : List (List (ZMod blsR)) → ℕ × (List UInt8 ⊕ List UInt8)) (tail : ℕ → Rng blsR) :
    let S := arkSuite pair stream shake ed
    let N : List (List (ZMod blsR)) → ℕ → ℕ → Aggregator blsR BlsG1 BlsG2 := fun cs i =>
      Spec.deliverBytes S m (fun _ => Aggregator.new cfg ps) ((Spec.byteSiegeList adv tail cs).take i)
    chance (times (times frRand (cfg.numParticipants - cfg.degree - 1)) k) (fun cs => ∃ i j, ¬ Spec.Healthy S cfg ps (N cs i j).tx) ≤
      k * (blsR : ℝ≥0∞)⁻¹ ∧
    chance (times (times frRand (cfg.numParticipants - cfg.degree - 1)) k) (fun cs => ∃ i, ¬ Spec.Exchanges S m (N cs i)) ≤
      k * (blsR : ℝ≥0∞)⁻¹ := by
  classical
  intro S N
  have hC := C96_codec stream shake ed pair
  have hD := C82_bls pair stream shake ed
  rw [(rows_uniform _ _).chance_eq, (rows_uniform _ _).chance_eq]
  refine ⟨ratio_le Fintype.card_ne_zero blsR_ne ?_, ratio_le Fintype.card_ne_zero blsR_ne ?_⟩
  · refine le_trans (Nat.mul_le_mul_right _ (card_mono fun c hc => ?_))
      (C125_attack S hS m cfg ps hreg ht (bls_small hcap).le hcap k _ (by omega) rfl (fun l => adv (l.map List.ofFn)) tail)
    rw [← byteSiegeList_ofFn]
    exact hc
  · refine le_trans (Nat.mul_le_mul_right _ (card_mono fun c hc => ?_))
      (C125_exchange S hS hD hC C96_canonical.2.2 m cfg ps hreg ht (bls_small hcap).le hcap k _ hk rfl (fun l => adv (l.map List.ofFn)) tail)
    rw [← byteSiegeList_ofFn]
    exact hc

end Verif
