import Verif.Props.Reconstruct

/-!
# Soundness against an adaptive adversary: C81

An adversary delivers messages to one aggregator. It chooses every message after it has seen all random scalars the
aggregator drew before.
-/

open Finset Polynomial

namespace Verif

set_option linter.unusedSectionVars false

variable {r : ℕ} [Fact r.Prime] {G1 G2 K : Type}
  [AddCommGroup G1] [DecidableEq G1] [AddCommGroup G2] [DecidableEq G2] [CommMonoid K] [DecidableEq K]
  [Module (ZMod r) G1] [Module (ZMod r) G2]

/-- The calls made by the adversary `adv` in `k` steps. In step `i` the aggregator's generator yields the scalars `c i`, used
by the degree test, and then `tail i`; the message is chosen knowing the scalars of the earlier steps. -/
def Spec.attack {k L : ℕ} (adv : List (Fin L → ZMod r) → PVSSShare r G1 G2 ⊕ AggShare r G1 G2) (tail : ℕ → ℕ → ZMod r)
    (c : Fin k → Fin L → ZMod r) : List (Op r G1 G2) :=
  List.ofFn fun i : Fin k =>
    match adv ((List.ofFn c).take i) with
    | .inl sh => .share (Spec.withPrefix (c i) (tail i)) sh
    | .inr ag => .agg (Spec.withPrefix (c i) (tail i)) ag

/-- The commitments in a message. -/
def Spec.commsOf : PVSSShare r G1 G2 ⊕ AggShare r G1 G2 → List G2
  | .inl sh => sh.core.comms
  | .inr ag => ag.core.comms

/-- The generator of a call. -/
def Spec.rngOf : Op r G1 G2 → Rng r
  | .share rng _ => rng
  | .agg rng _ => rng

/-- Fibre counting: if for every choice of the other coordinates at most a `1/q` fraction of the `i`-th coordinates is bad,
at most a `1/q` fraction of all vectors is bad. -/
theorem card_fibre {k : ℕ} {T : Type} [Fintype T] [DecidableEq T] [Nonempty T] (i : Fin k) (P : (Fin k → T) → Prop) [DecidablePred P] (q : ℕ)
    (h : ∀ c : Fin k → T, (univ.filter fun x : T => P (Function.update c i x)).card * q ≤ Fintype.card T) :
    (univ.filter P).card * q ≤ Fintype.card (Fin k → T) := by
  have hbij : (univ.filter fun p : (Fin k → T) × T => P (Function.update p.1 i p.2)).card =
      (univ.filter fun p : (Fin k → T) × T => P p.1).card := by
    refine card_bij' (fun p _ => (Function.update p.1 i p.2, p.1 i)) (fun p _ => (Function.update p.1 i p.2, p.1 i)) ?_ ?_ ?_ ?_
    · intro p hp
      simpa using hp
    · intro p hp
      simpa using hp
    · intro p _
      simp
    · intro p _
      simp
  have h1 : (univ.filter fun p : (Fin k → T) × T => P p.1).card = (univ.filter P).card * Fintype.card T := by
    rw [← card_univ, ← card_product]
    congr 1
    ext p
    simp
  have h2 : (univ.filter fun p : (Fin k → T) × T => P (Function.update p.1 i p.2)).card =
      ∑ c : Fin k → T, (univ.filter fun x : T => P (Function.update c i x)).card := by
    simp only [card_filter]
    rw [← univ_product_univ, sum_product]
  have h3 : (univ.filter P).card * Fintype.card T * q ≤ Fintype.card (Fin k → T) * Fintype.card T := by
    rw [← h1, ← hbij, h2, sum_mul]
    refine le_trans (sum_le_sum fun c _ => h c) ?_
    simp
  have hT : 0 < Fintype.card T := Fintype.card_pos
  rw [mul_right_comm] at h3
  exact Nat.le_of_mul_le_mul_right h3 hT

/-- A call whose message has a commitment vector of the right length that is no codeword but passes the degree test. -/
def Spec.Fooled (m : Mode) (n t : ℕ) (op : Op r G1 G2) : Prop :=
  (Spec.commsOf (Spec.msg op)).length = n ∧ ¬ Spec.Codeword r t (Spec.commsOf (Spec.msg op)) ∧
    (ensureDegree m (Spec.rngOf op) (Spec.commsOf (Spec.msg op)) t).isOk

/-- The transcript stays a codeword as long as no call is fooled. -/
theorem run_codeword (S : Suite r G1 G2 K) (hS : PairLaws S) (m : Mode) (ops : List (Op r G1 G2)) (a : Aggregator r G1 G2)
    (ha : Spec.Codeword r a.config.degree a.tx.core.comms)
    (h : ∀ op ∈ ops, ¬ Spec.Fooled m a.config.numParticipants a.config.degree op) :
    Spec.Codeword r a.config.degree (a.run S m ops).tx.core.comms := by
  induction ops generalizing a with
  | nil => exact ha
  | cons op ops ih =>
    obtain ⟨-, k1, k2⟩ := C19 S m a op
    have hstep : Spec.Codeword r a.config.degree (a.step S m op).2.tx.core.comms := by
      have hop := h op (by simp)
      rcases step_ok_cases S m a op with h4 | ⟨rng, rng', s, tx', rfl, hv, h5, h6⟩ | ⟨rng, rng', ag, tx', rfl, hv, h5, h6⟩
      · rw [h4]; exact ha
      · rw [h6]
        obtain ⟨-, -, -, -, hcore, -, -⟩ := (aggregate_iff _ _ _ _).1 h5
        obtain ⟨-, hl, -, -, -, k6⟩ := (coreAggregate_iff _ _ _).1 hcore
        obtain ⟨q, -, -, -, hlen, hdeg, -⟩ := (shareVerify_iff S hS m a _ _ s).1 hv
        have hs : Spec.Codeword r a.config.degree s.core.comms := by
          by_contra hne
          exact hop ⟨hlen, hne, ⟨_, hdeg⟩⟩
        simp only
        rw [k6]
        exact codeword_add hl ha hs
      · rw [h6]
        obtain ⟨-, -, -, -, hcore, -, -⟩ := (aggregate_iff _ _ _ _).1 h5
        obtain ⟨-, hl, -, -, -, k6⟩ := (coreAggregate_iff _ _ _).1 hcore
        obtain ⟨-, hlen, rng1, hdeg, -⟩ := (aggregationVerify_iff S hS m a _ _ ag).1 hv
        have hs : Spec.Codeword r a.config.degree ag.core.comms := by
          by_contra hne
          exact hop ⟨hlen, hne, ⟨_, hdeg⟩⟩
        simp only
        rw [k6]
        exact codeword_add hl ha hs
    have := ih (a.step S m op).2 (by rw [k1]; exact hstep) (by rw [k1]; exact fun op' hop' => h op' (by simp [hop']))
    rw [k1] at this
    exact this

open Classical in
/-- Counting: some call of the attack is fooled for at most a `k/r` fraction of the draws. -/
theorem card_fooled (m : Mode) (n t : ℕ) (ht : t + 2 ≤ n) (hn : n ≤ r) (hcap : n < 2 ^ 58) (k L : ℕ) (hL : L = n - t - 1)
    (adv : List (Fin L → ZMod r) → PVSSShare r G1 G2 ⊕ AggShare r G1 G2) (tail : ℕ → ℕ → ZMod r) :
    (univ.filter fun c : Fin k → Fin L → ZMod r => ∃ op ∈ Spec.attack adv tail c, Spec.Fooled m n t op).card * r
      ≤ k * Fintype.card (Fin k → Fin L → ZMod r) := by
  let bad : Fin k → (Fin k → Fin L → ZMod r) → Prop := fun i c =>
    (Spec.commsOf (adv ((List.ofFn c).take i))).length = n ∧
    ¬ Spec.Codeword r t (Spec.commsOf (adv ((List.ofFn c).take i))) ∧
    (ensureDegree m (Spec.withPrefix (c i) (tail i)) (Spec.commsOf (adv ((List.ofFn c).take i))) t).isOk
  have hsub : (univ.filter fun c : Fin k → Fin L → ZMod r => ∃ op ∈ Spec.attack adv tail c, Spec.Fooled m n t op) ⊆
      univ.biUnion fun i => univ.filter (bad i) := by
    intro c hc
    simp only [mem_filter, mem_univ, true_and, mem_biUnion] at hc ⊢
    obtain ⟨op, hop, hf⟩ := hc
    unfold Spec.attack at hop
    rw [List.mem_ofFn] at hop
    obtain ⟨i, rfl⟩ := hop
    refine ⟨i, ?_⟩
    revert hf
    unfold Spec.Fooled
    cases hadv : adv ((List.ofFn c).take i) <;> simp [bad, hadv, Spec.msg, Spec.rngOf]
  have hbad : ∀ i, (univ.filter (bad i)).card * r ≤ Fintype.card (Fin k → Fin L → ZMod r) := by
    intro i
    apply card_fibre i
    intro c
    have htake : ∀ x, (List.ofFn (Function.update c i x)).take i = (List.ofFn c).take i := by
      intro x
      apply List.ext_getElem (by simp)
      intro j h1 h2
      simp only [List.length_take, List.length_ofFn] at h1
      have hj : j < i := by omega
      simp only [List.getElem_take, List.getElem_ofFn]
      rw [Function.update_of_ne]
      intro h
      have := congrArg Fin.val h
      simp at this
      omega
    simp only [bad, htake, Function.update_self]
    generalize adv ((List.ofFn c).take i) = msg
    by_cases hg : (Spec.commsOf msg).length = n ∧ ¬ Spec.Codeword r t (Spec.commsOf msg)
    · have := (C13 m t (Spec.commsOf msg) hg.2 (by omega) (by omega) (by omega) (tail i)).1
      rw [hg.1, ← hL] at this
      refine le_trans (Nat.mul_le_mul_right _ (card_le_card ?_)) this
      intro x hx
      simp only [mem_filter, mem_univ, true_and] at hx ⊢
      exact hx.2.2
    · rw [filter_false_of_mem]
      · simp
      · rintro x - ⟨h1, h2, -⟩
        exact hg ⟨h1, h2⟩
  calc _ ≤ (univ.biUnion fun i => univ.filter (bad i)).card * r := Nat.mul_le_mul_right _ (card_le_card hsub)
    _ ≤ (∑ i, (univ.filter (bad i)).card) * r := Nat.mul_le_mul_right _ card_biUnion_le
    _ = ∑ i, (univ.filter (bad i)).card * r := sum_mul _ _ _
    _ ≤ ∑ _i : Fin k, Fintype.card (Fin k → Fin L → ZMod r) := sum_le_sum fun i _ => hbad i
    _ = k * Fintype.card (Fin k → Fin L → ZMod r) := by simp

/-- The commitments of the empty transcript are a codeword. -/
theorem codeword_new (cfg : Config G1 G2) (ps : BMap (Participant G1)) :
    Spec.Codeword r cfg.degree (Aggregator.new cfg ps : Aggregator r G1 G2).tx.core.comms := by
  refine ⟨fun _ => 0, fun i hi => ?_⟩
  simp [Aggregator.new, AggShare.empty, PVSSCore.empty]

open Classical in
/-- **C81**. Whatever an adaptive adversary does in `k` calls, the transcript's commitments fail to be a codeword for at most a
`k/r` fraction of the aggregator's random draws. -/
theorem C81 (S : Suite r G1 G2 K) (hS : PairLaws S) (m : Mode) (cfg : Config G1 G2) (ps : BMap (Participant G1))
    (ht : cfg.degree + 2 ≤ cfg.numParticipants) (hn : cfg.numParticipants ≤ r) (hcap : cfg.numParticipants < 2 ^ 58)
    (k L : ℕ) (hL : L = cfg.numParticipants - cfg.degree - 1)
    (adv : List (Fin L → ZMod r) → PVSSShare r G1 G2 ⊕ AggShare r G1 G2) (tail : ℕ → ℕ → ZMod r) :
    (univ.filter fun c : Fin k → Fin L → ZMod r =>
        ¬ Spec.Codeword r cfg.degree ((Aggregator.new cfg ps).run S m (Spec.attack adv tail c)).tx.core.comms).card * r
      ≤ k * Fintype.card (Fin k → Fin L → ZMod r) := by
  refine le_trans (Nat.mul_le_mul_right _ (card_le_card ?_)) (card_fooled m _ _ ht hn hcap k L hL adv tail)
  intro c hc
  simp only [mem_filter, mem_univ, true_and] at hc ⊢
  by_contra hno
  push Not at hno
  exact hc (run_codeword S hS m _ (Aggregator.new cfg ps) (codeword_new cfg ps) hno)

open Classical in
/-- **C81** (the secret). Under the same attack, for all but a `k/r` fraction of the draws the following holds: whatever values
pass the public check against the final transcript, from any `t + 1` parties, they reconstruct the secret fixed by the
listed contributors. -/
theorem C81_secret (S : Suite r G1 G2 K) (hS : PairLaws S) (cfg : Config G1 G2) (ps : BMap (Participant G1))
    (hids : ∀ i q, ps.get i = some q → i < cfg.numParticipants)
    (ht : cfg.degree + 2 ≤ cfg.numParticipants) (hn : cfg.numParticipants ≤ r) (hcap : cfg.numParticipants < 2 ^ 58)
    (k L : ℕ) (hL : L = cfg.numParticipants - cfg.degree - 1)
    (adv : List (Fin L → ZMod r) → PVSSShare r G1 G2 ⊕ AggShare r G1 G2) (tail : ℕ → ℕ → ZMod r) :
    (univ.filter fun c : Fin k → Fin L → ZMod r =>
        ¬ ∀ (m : Mode) (ids : List ℕ) (ds : List G1), Spec.Selection cfg.numParticipants cfg.degree ids →
          Spec.Checked S cfg.srs.g1 cfg.srs.g2
            ((Aggregator.new cfg ps).run S .checked (Spec.attack adv tail c)).tx.core.comms ids ds →
          ∃ s, lagrangeG1 m ds (ids.map (Spec.point r)) cfg.degree = .ok s ∧
            S.pair s cfg.srs.g2 = S.pair cfg.srs.g1 (Spec.weightedGs
              ((Aggregator.new cfg ps).run S .checked (Spec.attack adv tail c)).tx.contributions)).card * r
      ≤ k * Fintype.card (Fin k → Fin L → ZMod r) := by
  refine le_trans (Nat.mul_le_mul_right _ (card_le_card ?_)) (C81 S hS .checked cfg ps ht hn hcap k L hL adv tail)
  intro c hc
  simp only [mem_filter, mem_univ, true_and] at hc ⊢
  refine fun hcw => hc fun m ids ds hsel hd => ?_
  have hinv := C31 S hS cfg ps hids hn (by omega) (Spec.attack adv tail c)
  have hl := hinv.comms_length
  obtain ⟨s, h1, -, h2, -⟩ := C79 m S hS cfg.srs.g1 cfg.srs.g2 cfg.degree _ hcw (by omega) _ hinv.interp ids ds
    (by rw [hl]; exact hsel) hd
  exact ⟨s, h1, h2⟩

/-- A share with a wrong last commitment that the draw `0, 0` accepts, after which the transcript is no codeword. -/
theorem Toy.fooled : ∃ sh : PVSSShare 13 (ZMod 13) (ZMod 13), ¬ Spec.Codeword 13 1
    ((Aggregator.new Toy.cfg Toy.parties).run (Toy.suite 13) .checked
      [.share (Spec.withPrefix (fun _ : Fin 2 => (0 : ZMod 13)) fun _ => 0) sh]).tx.core.comms := by
  obtain ⟨sh, hcore, hid, -, h⟩ := Toy.accepted52
  set sh' : PVSSShare 13 (ZMod 13) (ZMod 13) := { sh with core := { sh.core with comms := sh.core.comms.set 3 1 } } with hsh'
  have hcore' : sh'.core = ⟨[14, 27, 44, 65], [7, 9, 11, 1]⟩ := by rw [hsh', hcore]; rfl
  set rng : Rng 13 := Spec.withPrefix (fun _ : Fin 2 => (0 : ZMod 13)) fun _ => 0 with hrng
  obtain ⟨rng', h⟩ := h rng
  have hv : ∃ rng', Toy.agg.shareVerify (Toy.suite 13) .checked rng sh' = .ok rng' := by
    rw [C15 (Toy.suite 13) (Toy.pairLaws 13) .checked Toy.agg rng rng' sh (by decide) (by decide) (by decide)] at h
    obtain ⟨⟨q, h1, ⟨e, c, h2, h3, h4⟩, h5⟩, h6, h7, h8, h9, ⟨A, h10, h10'⟩, h11⟩ := h
    refine ⟨_, (C15 (Toy.suite 13) (Toy.pairLaws 13) .checked Toy.agg rng _ sh' (by decide) (by decide) (by decide)).2
      ⟨⟨q, h1, ⟨e, c, h2, ?_, h4⟩, h5⟩, h6, h7, by rw [hcore']; rfl, ?_, ⟨A, ?_, h10'⟩, rfl⟩⟩
    · rw [← h3, hcore', hcore]
      show _ = ([7, 9, 11, 13] : List (ZMod 13))[sh.participantId]?
      rw [show sh'.participantId = 2 from hid]
      rfl
    · unfold Spec.DegreeTest
      have h0 : ∀ k, rng k = 0 := by
        intro k
        rw [hrng]
        unfold Spec.withPrefix
        split <;> rfl
      simp [h0]
    · intro j hj hj1
      have hj1' : j ≤ 1 := hj1
      have h2 := h10 j (by rw [hcore]; show j < 4; omega) hj1
      rw [← h2]
      simp only [hsh']
      rw [List.getElem_set_ne (by omega)]
  obtain ⟨rng'', hv⟩ := hv
  obtain ⟨tx, h2⟩ := aggregatePvssShare_ok .checked Toy.agg.config Toy.agg.tx sh'
    ⟨rfl, rfl, rfl, rfl, fun x w hx => by cases hx⟩ (by decide) (by rw [hcore']; rfl) (by rw [hcore']; rfl)
  have hrec : Toy.agg.receiveShare (Toy.suite 13) .checked rng sh' = (.ok (), { Toy.agg with tx := tx }) :=
    (receiveShare_ok_iff _ _ _ _ _ _).2 ⟨rng'', tx, hv, h2, rfl⟩
  refine ⟨sh', ?_⟩
  have hrun : (Aggregator.new Toy.cfg Toy.parties).run (Toy.suite 13) .checked [.share rng sh'] = { Toy.agg with tx := tx } :=
    congrArg Prod.snd hrec
  rw [hrun]
  obtain ⟨-, -, -, -, hadd, -, -⟩ := (aggregate_iff _ _ _ _).1 h2
  have htx : tx.core = ⟨[14, 27, 44, 65], [7, 9, 11, 1]⟩ := by
    rw [show (AggShare.ofShare Toy.agg.tx.degree Toy.agg.tx.numParticipants sh').core = sh'.core from rfl, hcore'] at hadd
    exact (Res.ok.inj (hadd.symm.trans (by rfl)))
  simp only [htx]
  rintro ⟨A, hA⟩
  have h1 := hA 1 (by decide)
  have h2 := hA 2 (by decide)
  have h3 := hA 3 (by decide)
  simp [Finset.sum_range_succ, Spec.point] at h1 h2 h3
  have : (12 : ZMod 13) = 0 := by linear_combination 2 * h2 - h1 - h3
  exact absurd this (by decide)

/-- Non-vacuity of C81: the bound is not zero. An adversary sends the share of party 2 with a wrong last commitment; the draw
`0, 0` accepts it, and the transcript is then no codeword. -/
example : ∃ adv : List (Fin 2 → ZMod 13) → PVSSShare 13 (ZMod 13) (ZMod 13) ⊕ AggShare 13 (ZMod 13) (ZMod 13),
    ¬ Spec.Codeword 13 1 ((Aggregator.new Toy.cfg Toy.parties).run (Toy.suite 13) .checked
      (Spec.attack (k := 1) adv (fun _ _ => 0) fun _ _ => 0)).tx.core.comms := by
  obtain ⟨sh, h⟩ := Toy.fooled
  exact ⟨fun _ => .inl sh, h⟩

end Verif
