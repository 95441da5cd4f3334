import Verif.Props.Siege
import Verif.Props.Batch

/-!
# The commented-out check closes the gaps: C114

C16, C21, C33 and C80 are false of the code because encryptions are checked for one slot only (shares) or for their sum only
(transcripts).  Lines 166-180 of aggregator.rs contain, commented out, a check of every slot.  Here every message goes through it before
it is handed to the unchanged `receive_share` or `receive_aggregated_share`.
-/

open Finset Polynomial
open scoped ENNReal

namespace Verif

set_option linter.unusedSectionVars false

open Sampler

section Count
variable {r : ℕ} [Fact r.Prime] {G1 G2 K : Type}
  [AddCommGroup G1] [DecidableEq G1] [AddCommGroup G2] [DecidableEq G2] [CommMonoid K] [DecidableEq K]
  [Module (ZMod r) G1] [Module (ZMod r) G2]

/-- The vectors of a message. -/
def Spec.coreOf : Op r G1 G2 → PVSSCore G1 G2
  | .share _ sh => sh.core
  | .agg _ ag => ag.core

open Classical in
/-- A call behind the check of every slot: messages that fail it are not handed over. -/
noncomputable def Spec.guarded (S : Suite r G1 G2 K) (m : Mode) (a : Aggregator r G1 G2) (op : Op r G1 G2) : Aggregator r G1 G2 :=
  if Spec.SlotsPass S a (Spec.coreOf op) then (a.step S m op).2 else a

/-- Calls to the aggregators `N`, one after the other, all behind the check. -/
noncomputable def Spec.deliverGuarded (S : Suite r G1 G2 K) (m : Mode) (N : ℕ → Aggregator r G1 G2) :
    List (ℕ × Op r G1 G2) → ℕ → Aggregator r G1 G2
  | [] => N
  | (j, op) :: calls => Spec.deliverGuarded S m (Function.update N j (Spec.guarded S m (N j) op)) calls

/-- All is well with the transcript `tx`: every peer accepts it, whatever it draws, and every set of parties that decrypt their own slots
with their keys and are enough reconstruct the secret of the listed contributors. -/
def Spec.Healthy (S : Suite r G1 G2 K) (cfg : Config G1 G2) (ps : BMap (Participant G1)) (tx : AggShare r G1 G2) : Prop :=
  (∀ (peer : Aggregator r G1 G2) (m : Mode) (rng : Rng r), peer.config = cfg → peer.participants = ps →
    ∃ rng', peer.aggregationVerify S m rng tx = .ok rng') ∧
  ∀ (sk : ℕ → ZMod r) (ids : List ℕ) (ds : List (DecryptedShare G1)), Spec.Selection cfg.numParticipants cfg.degree ids →
    (∀ i ∈ ids, sk i ≠ 0 ∧ ∃ q, ps.get i = some q ∧ q.pkSig = sk i • cfg.srs.g1) → Spec.Decrypted tx.core.encs sk ids ds →
    ∃ s, lagrangeG1 .checked (ds.map (·.dec)) (ds.map fun d => Spec.point r d.origin) cfg.degree = .ok s ∧
      S.pair s cfg.srs.g2 = S.pair cfg.srs.g1 (Spec.weightedGs tx.contributions)

theorem slotsPass_congr (S : Suite r G1 G2 K) {a b : Aggregator r G1 G2} (h1 : a.config = b.config) (h2 : a.participants = b.participants)
    (core : PVSSCore G1 G2) : Spec.SlotsPass S a core ↔ Spec.SlotsPass S b core := by
  unfold Spec.SlotsPass
  rw [h1, h2]

open Classical in
theorem deliverGuarded_eq (S : Suite r G1 G2 K) (m : Mode) (cfg : Config G1 G2) (ps : BMap (Participant G1))
    (calls : List (ℕ × Op r G1 G2)) : ∀ N : ℕ → Aggregator r G1 G2, (∀ j, (N j).config = cfg ∧ (N j).participants = ps) →
      Spec.deliverGuarded S m N calls =
        Spec.deliver S m N (calls.filter fun e => Spec.SlotsPass S (Aggregator.new cfg ps) (Spec.coreOf e.2)) := by
  induction calls with
  | nil => intro N _; rfl
  | cons e calls ih =>
    obtain ⟨j, op⟩ := e
    intro N hN
    rw [Spec.deliverGuarded, Spec.guarded]
    have hc := slotsPass_congr S (a := N j) (b := Aggregator.new cfg ps) (hN j).1 (hN j).2 (Spec.coreOf op)
    by_cases h : Spec.SlotsPass S (Aggregator.new cfg ps) (Spec.coreOf op)
    · rw [if_pos (hc.2 h), List.filter_cons_of_pos (by simpa using h), Spec.deliver]
      refine ih _ fun i => ?_
      obtain ⟨-, k1, k2⟩ := C19 S m (N j) op
      by_cases hi : i = j
      · subst hi
        rw [Function.update_self]
        exact ⟨k1.trans (hN i).1, k2.trans (hN i).2⟩
      · rw [Function.update_of_ne hi]
        exact hN i
    · rw [if_neg (fun h' => h (hc.1 h')), List.filter_cons_of_neg (by simpa using h), Function.update_eq_self]
      exact ih N hN

/-- The encryptions of a transcript stay correct if those of all messages are. -/
theorem run_encOk (S : Suite r G1 G2 K) (hS : PairLaws S) (m : Mode) (cfg : Config G1 G2) (ps : BMap (Participant G1))
    (hreg : ∀ i < cfg.numParticipants, ps.get i ≠ none) (ops : List (Op r G1 G2))
    (ho : ∀ op ∈ ops, Spec.SlotsPass S (Aggregator.new cfg ps) (Spec.coreOf op)) :
    Spec.AllEncOk S cfg.srs.g2 ps cfg.numParticipants ((Aggregator.new cfg ps).run S m ops).tx.core := by
  have key : ∀ a : Aggregator r G1 G2, a.config = cfg → a.participants = ps →
      Spec.AllEncOk S cfg.srs.g2 ps cfg.numParticipants a.tx.core →
      Spec.AllEncOk S cfg.srs.g2 ps cfg.numParticipants (a.run S m ops).tx.core := by
    induction ops with
    | nil => exact fun a _ _ h => h
    | cons op ops ih =>
      intro a hc hp h
      obtain ⟨-, k1, k2⟩ := C19 S m a op
      refine ih (fun op' hop => ho op' (by simp [hop])) (a.step S m op).2 (by rw [k1, hc]) (by rw [k2, hp]) ?_
      have hop := (C107_slots S hS _ _).1 (ho op (by simp))
      have hadd : ∀ b c, Spec.AllEncOk S cfg.srs.g2 ps cfg.numParticipants b → a.tx.core.aggregate b = .ok c →
          Spec.AllEncOk S cfg.srs.g2 ps cfg.numParticipants c := by
        intro b c hb hcore i hi
        obtain ⟨q, hq, e1⟩ := h i hi
        obtain ⟨q', hq', e2⟩ := hb i hi
        rw [hq] at hq'
        obtain rfl := Option.some.inj hq'
        exact ⟨q, hq, encOk_add hS hcore e1 e2⟩
      rcases step_ok_cases S m a op with h4 | ⟨_, _, s, tx', rfl, -, h5, h6⟩ | ⟨_, _, ag, tx', rfl, -, h5, h6⟩
      · rw [h4]; exact h
      · rw [h6]
        obtain ⟨-, -, -, -, hcore, -, -⟩ := (aggregate_iff _ _ _ _).1 h5
        exact hadd _ _ hop hcore
      · rw [h6]
        obtain ⟨-, -, -, -, hcore, -, -⟩ := (aggregate_iff _ _ _ _).1 h5
        exact hadd _ _ hop hcore
  refine key (Aggregator.new cfg ps) rfl rfl fun i hi => ?_
  cases hg : ps.get i with
  | none => exact absurd hg (hreg i hi)
  | some q =>
    refine ⟨q, rfl, 0, 0, ?_, ?_, by rw [hS.zero_left, hS.zero_right]⟩
    · simp [Aggregator.new, AggShare.empty, PVSSCore.empty, hi]
    · simp [Aggregator.new, AggShare.empty, PVSSCore.empty, hi]

/-- **C114** (encryptions). Behind the check, the encryptions every aggregator holds are correct for every party at all times, whatever
messages arrive and whatever is drawn, in every build mode. -/
theorem C114 (S : Suite r G1 G2 K) (hS : PairLaws S) (m : Mode) (cfg : Config G1 G2) (ps : BMap (Participant G1))
    (hreg : ∀ i < cfg.numParticipants, ps.get i ≠ none) (calls : List (ℕ × Op r G1 G2)) (j : ℕ) :
    Spec.AllEncOk S cfg.srs.g2 ps cfg.numParticipants
      (Spec.deliverGuarded S m (fun _ => Aggregator.new cfg ps) calls j).tx.core := by
  classical
  rw [deliverGuarded_eq S m cfg ps calls _ fun _ => ⟨rfl, rfl⟩, deliver_eq]
  refine run_encOk S hS m cfg ps hreg _ fun op hop => ?_
  obtain ⟨e, he, rfl⟩ := List.mem_map.1 hop
  simpa using (List.mem_filter.1 (List.mem_filter.1 he).1).2

/-- **C114** (honest messages). The check refuses no correct sharing. -/
theorem C114_honest (S : Suite r G1 G2 K) (hS : PairLaws S) (a : Aggregator r G1 G2) (core : PVSSCore G1 G2) (pk : ℕ → G1)
    (hk : Spec.KeyTable a.participants a.config.numParticipants pk) (p : (ZMod r)[X])
    (hs : Spec.Shares a.config.srs.g2 a.config.numParticipants a.config.degree pk core p) : Spec.SlotsPass S a core := by
  rw [C107_slots S hS]
  intro i hi
  obtain ⟨q, hq, hpk⟩ := hk i hi
  have h1 : i < core.encs.length := by rw [hs.encs_length]; exact hi
  have h2 : i < core.comms.length := by rw [hs.comms_length]; exact hi
  refine ⟨q, hq, _, _, List.getElem?_eq_getElem h1, List.getElem?_eq_getElem h2, ?_⟩
  rw [hs.enc i h1, hs.comm i h2, hpk, hS.smul_comm]

open Classical in
/-- **C114** (under attack). An adversary who controls the network and all dealers, and sees every scalar drawn, makes `k` calls to any
aggregators behind the check. For all but a `k/r` fraction of the draws all transcripts are healthy at all times: every peer accepts
them and every `t + 1` parties decrypt the secret of the listed contributors. -/
theorem C114_attack (S : Suite r G1 G2 K) (hS : PairLaws S) (cfg : Config G1 G2) (ps : BMap (Participant G1))
    (hids : ∀ i q, ps.get i = some q → i < cfg.numParticipants) (hreg : ∀ i < cfg.numParticipants, ps.get i ≠ none)
    (ht : cfg.degree + 2 ≤ cfg.numParticipants) (hn : cfg.numParticipants ≤ r) (hcap : cfg.numParticipants < 2 ^ 58)
    (k L : ℕ) (hL : L = cfg.numParticipants - cfg.degree - 1)
    (adv : List (Fin L → ZMod r) → ℕ × (PVSSShare r G1 G2 ⊕ AggShare r G1 G2)) (tail : ℕ → ℕ → ZMod r) :
    (univ.filter fun c : Fin k → Fin L → ZMod r => ∃ i j, ¬ Spec.Healthy S cfg ps
        (Spec.deliverGuarded S .checked (fun _ => Aggregator.new cfg ps) ((Spec.siege adv tail c).take i) j).tx).card * r
      ≤ k * Fintype.card (Fin k → Fin L → ZMod r) := by
  refine le_trans (Nat.mul_le_mul_right _ (card_le_card ?_))
    (card_fooled (G1 := G1) (G2 := G2) .checked _ _ ht hn hcap k L hL (fun l => (adv l).2) tail)
  intro c hc
  simp only [mem_filter, mem_univ, true_and] at hc ⊢
  by_contra hno
  push Not at hno
  obtain ⟨i, j, hc⟩ := hc
  apply hc
  have henc := C114 S hS .checked cfg ps hreg ((Spec.siege adv tail c).take i) j
  rw [deliverGuarded_eq S .checked cfg ps _ _ fun _ => ⟨rfl, rfl⟩, deliver_eq] at henc ⊢
  set ops := (((((Spec.siege adv tail c).take i).filter fun e => Spec.SlotsPass S (Aggregator.new cfg ps) (Spec.coreOf e.2))).filter
    fun e => e.1 = j).map Prod.snd with hops
  have hcw : Spec.Codeword r cfg.degree ((Aggregator.new cfg ps).run S .checked ops).tx.core.comms := by
    refine run_codeword S hS .checked _ (Aggregator.new cfg ps) (codeword_new cfg ps) fun op hop => hno op ?_
    rw [← siege_ops]
    obtain ⟨e, he, rfl⟩ := List.mem_map.1 hop
    exact List.mem_map.2 ⟨e, List.mem_of_mem_take (List.mem_filter.1 (List.mem_filter.1 he).1).1, rfl⟩
  have hinv := C31 S hS cfg ps hids hn (by omega) ops
  refine ⟨fun peer m rng hpc hpp => ?_, fun sk ids ds hsel hsk hd => ?_⟩
  · refine (C33_decides S hS cfg ps hids hn hcap ht ops peer hpc hpp m rng).2 ⟨?_, ?_⟩
    · have hl := hinv.comms_length
      exact ((ensureDegree_iff m rng _ _ (by omega) (by omega) (by omega)).1
        (C12_group m rng cfg.degree _ hcw (by omega) (by omega) (by omega))).1
    · have hk : ∀ i, ∃ pk, i < cfg.numParticipants → ∃ q, ps.get i = some q ∧ q.pkSig = pk := by
        intro i
        cases hg : ps.get i with
        | none => exact ⟨0, fun hi => absurd hg (hreg i hi)⟩
        | some q => exact ⟨q.pkSig, fun _ => ⟨q, rfl, rfl⟩⟩
      choose pk hpk using hk
      refine ⟨pk, fun i hi => hpk i hi, ?_⟩
      refine batchEq_of_encOk hS hinv.encs_length hinv.comms_length (fun i hi => ?_) _
      obtain ⟨q, hq, he⟩ := henc i hi
      obtain ⟨q', hq', hp⟩ := hpk i hi
      rw [hq] at hq'
      obtain rfl := Option.some.inj hq'
      rw [← hp]
      exact he
  · refine C80_partial S hS cfg ps hids hn (by omega) sk ops ids ds hcw hsel hd (fun i hi => (hsk i hi).1) fun i hi => ?_
    obtain ⟨q, hq, he⟩ := henc i (hsel.lt i hi)
    obtain ⟨q', hq', hp⟩ := (hsk i hi).2
    rw [hq] at hq'
    obtain rfl := Option.some.inj hq'
    rw [← hp]
    exact he

/-- Non-vacuity of C114: the share with a wrong encryption for party 0, which an aggregator of the code accepts, is refused behind the
check, while the genuine one is received. -/
example : ∃ sh sh' : PVSSShare 13 (ZMod 13) (ZMod 13),
    (∃ a', Toy.agg.receiveShare (Toy.suite 13) .checked Toy.rng52 sh = (.ok (), a')) ∧
    (let N := Spec.deliverGuarded (Toy.suite 13) .checked (fun _ => Aggregator.new Toy.cfg Toy.parties)
      [(4, .share Toy.rng52 sh), (9, .share Toy.rng52 sh')]
    N 4 = Toy.agg ∧ (N 9).tx.core = ⟨[14, 27, 44, 65], [7, 9, 11, 13]⟩) := by
  obtain ⟨sh, a, hcore, hrec⟩ := Toy.forged Toy.rng52
  obtain ⟨sh', hcore', hid, -, h⟩ := Toy.accepted52
  obtain ⟨rng', h⟩ := h Toy.rng52
  obtain ⟨tx, h2⟩ := aggregatePvssShare_ok .checked Toy.agg.config Toy.agg.tx sh'
    ⟨rfl, rfl, rfl, rfl, fun x w hx => by cases hx⟩ (by decide) (by rw [hcore']; rfl) (by rw [hcore']; rfl)
  have hrec' : Toy.agg.receiveShare (Toy.suite 13) .checked Toy.rng52 sh' = (.ok (), { Toy.agg with tx := tx }) :=
    (receiveShare_ok_iff _ _ _ _ _ _).2 ⟨rng', tx, h, h2, rfl⟩
  obtain ⟨-, -, -, -, hadd, -, -⟩ := (aggregate_iff _ _ _ _).1 h2
  have htx : tx.core = ⟨[14, 27, 44, 65], [7, 9, 11, 13]⟩ := by
    rw [show (AggShare.ofShare Toy.agg.tx.degree Toy.agg.tx.numParticipants sh').core = sh'.core from rfl, hcore'] at hadd
    refine (Res.ok.inj (hadd.symm.trans ?_))
    show Res.ok _ = Res.ok _
    simp [Toy.agg, Aggregator.new, AggShare.empty, PVSSCore.empty, Toy.cfg, Toy.core52, List.replicate]
  have hbad : ¬ Spec.SlotsPass (Toy.suite 13) Toy.agg sh.core := by
    rw [C107_slots _ (Toy.pairLaws 13), hcore]
    intro h
    obtain ⟨q, hq, e, c, he, hc, hp⟩ := h 0 (by decide)
    have : Toy.agg.participants.get 0 = some (Toy.participant 0 (Toy.sk 0)) := rfl
    rw [this] at hq
    cases hq
    cases hc
    cases he
    revert hp
    decide
  have hgood : Spec.SlotsPass (Toy.suite 13) Toy.agg sh'.core := by
    rw [hcore']
    refine C114_honest _ (Toy.pairLaws 13) Toy.agg _ Toy.sk ?_ _ Toy.shares52
    intro i hi
    match i, hi with
    | 0, _ => exact ⟨_, rfl, rfl⟩
    | 1, _ => exact ⟨_, rfl, rfl⟩
    | 2, _ => exact ⟨_, rfl, rfl⟩
    | 3, _ => exact ⟨_, rfl, rfl⟩
  refine ⟨sh, sh', ⟨a, hrec⟩, ?_⟩
  intro N
  have h4 : N 4 = Spec.guarded (Toy.suite 13) .checked Toy.agg (.share Toy.rng52 sh) := rfl
  have h9 : N 9 = Spec.guarded (Toy.suite 13) .checked Toy.agg (.share Toy.rng52 sh') := rfl
  rw [h4, h9, Spec.guarded, Spec.guarded, Spec.coreOf, Spec.coreOf, if_neg hbad, if_pos hgood]
  refine ⟨rfl, ?_⟩
  have : (Toy.agg.step (Toy.suite 13) .checked (.share Toy.rng52 sh')).2 = { Toy.agg with tx := tx } := congrArg Prod.snd hrec'
  rw [this]
  exact htx

end Count

/-! ### With the real generator at BLS12-381 -/

variable {G1 G2 K : Type}
  [AddCommGroup G1] [DecidableEq G1] [AddCommGroup G2] [DecidableEq G2] [CommMonoid K] [DecidableEq K]
  [Module (ZMod blsR) G1] [Module (ZMod blsR) G2]

/-- **C114** (BLS12-381). When the aggregators draw with `Scalar::rand`, the probability that some transcript behind the check is ever not
healthy is at most `k / r` after `k` calls. -/
theorem C114_bls (S : Suite blsR G1 G2 K) (hS : PairLaws S) (cfg : Config G1 G2) (ps : BMap (Participant G1))
    (hids : ∀ i q, ps.get i = some q → i < cfg.numParticipants) (hreg : ∀ i < cfg.numParticipants, ps.get i ≠ none)
    (ht : cfg.degree + 2 ≤ cfg.numParticipants) (hcap : cfg.numParticipants < 2 ^ 58) (k : ℕ)
    (adv : List (List (ZMod blsR)) → ℕ × (PVSSShare blsR G1 G2 ⊕ AggShare blsR G1 G2)) (tail : ℕ → Rng blsR) :
    chance (times (times frRand (cfg.numParticipants - cfg.degree - 1)) k) (fun cs => ∃ i j, ¬ Spec.Healthy S cfg ps
      (Spec.deliverGuarded S .checked (fun _ => Aggregator.new cfg ps) ((Spec.siegeList adv tail cs).take i) j).tx) ≤
      k * (blsR : ℝ≥0∞)⁻¹ := by
  classical
  rw [(rows_uniform _ _).chance_eq]
  refine ratio_le Fintype.card_ne_zero blsR_ne ?_
  refine le_trans (Nat.mul_le_mul_right _ (card_mono fun c hc => ?_))
    (C114_attack S hS cfg ps hids hreg ht (bls_small hcap).le hcap k _ rfl (fun l => adv (l.map List.ofFn)) tail)
  rw [← siegeList_ofFn]
  exact hc

end Verif
