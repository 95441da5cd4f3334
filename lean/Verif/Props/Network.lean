import Verif.Props.History
import Verif.Props.Converge
import Mathlib.Tactic.NormNum.NatFib

/-!
# A network of honest nodes: C83, C84

Nodes run the aggregator of /repo/src/modified_scrape/aggregator.rs (lines 231-267, `receive_share` and
`receive_aggregated_share`). The network between them is not code in the repository; it is given here as part of the
specification and is as unreliable as possible: shares and transcripts may be lost, delayed, repeated, reordered and delivered
to any node, and a transcript may be delivered long after its sender has moved on.
-/

open Finset Polynomial

set_option linter.unusedSectionVars false

namespace Verif

variable {r : ℕ} [Fact r.Prime] {G1 G2 K : Type}
  [AddCommGroup G1] [DecidableEq G1] [AddCommGroup G2] [DecidableEq G2] [CommMonoid K] [DecidableEq K]
  [Module (ZMod r) G1] [Module (ZMod r) G2]

/-- The weight of party `i` in a transcript (0 if it has no contribution). -/
def Spec.weightOf (tx : AggShare r G1 G2) (i : ℕ) : ℕ := (tx.contributions.get i).elim 0 fun v => v.2.toNat

/-- The weight of party `i` that a message adds to a transcript. -/
def Spec.opWeight : Op r G1 G2 → ℕ → ℕ
  | .share _ sh, i => if i = sh.participantId then 1 else 0
  | .agg _ ag, i => Spec.weightOf ag i

/-- The nodes, and the transcripts posted so far. -/
structure Spec.Net (r : ℕ) (G1 G2 : Type) where
  node : ℕ → Aggregator r G1 G2
  posts : List (AggShare r G1 G2)

/-- The network chooses the next event: deliver the `k`-th published share to node `j`, let node `i` post its transcript, or
deliver the `k`-th posted transcript to node `j`. -/
inductive Spec.Ev (r : ℕ) where
  | share (j : ℕ) (rng : Rng r) (k : ℕ)
  | post (i : ℕ)
  | merge (j : ℕ) (rng : Rng r) (k : ℕ)

/-- The call made by an event, if any. -/
def Spec.Net.call (D : List (PVSSShare r G1 G2)) (N : Spec.Net r G1 G2) : Spec.Ev r → Option (ℕ × Op r G1 G2)
  | .share j rng k => D[k]?.map fun sh => (j, .share rng sh)
  | .post _ => none
  | .merge j rng k => N.posts[k]?.map fun tx => (j, .agg rng tx)

/-- The outcome of the call made by an event (`ok` if it makes none). -/
noncomputable def Spec.Net.outcome (S : Suite r G1 G2 K) (m : Mode) (D : List (PVSSShare r G1 G2)) (N : Spec.Net r G1 G2)
    (e : Spec.Ev r) : Res PVSSError Unit :=
  match N.call D e with
  | some (j, op) => ((N.node j).step S m op).1
  | none => .ok ()

/-- The network after an event. -/
noncomputable def Spec.Net.step (S : Suite r G1 G2 K) (m : Mode) (D : List (PVSSShare r G1 G2)) (N : Spec.Net r G1 G2)
    (e : Spec.Ev r) : Spec.Net r G1 G2 :=
  ⟨match N.call D e with
    | some (j, op) => Function.update N.node j ((N.node j).step S m op).2
    | none => N.node,
   match e with
    | .post i => N.posts ++ [(N.node i).tx]
    | _ => N.posts⟩

/-- The network after a sequence of events. -/
noncomputable def Spec.Net.run (S : Suite r G1 G2 K) (m : Mode) (D : List (PVSSShare r G1 G2)) (N : Spec.Net r G1 G2)
    (evs : List (Spec.Ev r)) : Spec.Net r G1 G2 := evs.foldl (Spec.Net.step S m D) N

/-- All nodes fresh, nothing posted. -/
def Spec.Net.start (cfg : Config G1 G2) (ps : BMap (Participant G1)) : Spec.Net r G1 G2 := ⟨fun _ => .new cfg ps, []⟩

/-- The call of the event makes no weight reach `2^64`. -/
def Spec.Net.Fits (D : List (PVSSShare r G1 G2)) (N : Spec.Net r G1 G2) (e : Spec.Ev r) : Prop :=
  ∀ j op, N.call D e = some (j, op) → ∀ i, Spec.weightOf (N.node j).tx i + Spec.opWeight op i < 2 ^ 64

/-- Published shares of honest dealers: correct shares of polynomials `E`, at most one per dealer. -/
structure Spec.Published (S : Suite r G1 G2 K) (cfg : Config G1 G2) (ps : BMap (Participant G1))
    (E : List (PVSSShare r G1 G2 × (ZMod r)[X])) : Prop where
  good : ∀ e ∈ E, Spec.GoodShare S cfg ps e.1 e.2
  nodup : (E.map fun e => e.1.participantId).Nodup

theorem published_unique {S : Suite r G1 G2 K} {cfg : Config G1 G2} {ps : BMap (Participant G1)}
    {E : List (PVSSShare r G1 G2 × (ZMod r)[X])} (h : Spec.Published S cfg ps E) {e e'} (he : e ∈ E) (he' : e' ∈ E)
    (hid : e.1.participantId = e'.1.participantId) : e = e' :=
  List.inj_on_of_nodup_map h.nodup he he' hid

/-! ### One delivery -/

theorem weightOf_honest {S : Suite r G1 G2 K} {cfg : Config G1 G2} {ps : BMap (Participant G1)} {a : AggShare r G1 G2}
    {l : List (PVSSShare r G1 G2 × (ZMod r)[X])} (h : Spec.HonestTx S cfg ps a l) (i : ℕ) :
    Spec.weightOf a i = l.countP fun e => e.1.participantId = i := by
  obtain ⟨h1, h2⟩ := honest_contribs h
  unfold Spec.weightOf
  cases hg : a.contributions.get i with
  | some v => exact (h1 i v.1 v.2 hg).2
  | none =>
    symm
    rw [List.countP_eq_zero.2]
    · rfl
    intro e he hi
    simp only [decide_eq_true_eq] at hi
    exact h2 e he (by rw [hi]; exact hg)

theorem honest_same {S : Suite r G1 G2 K} {cfg : Config G1 G2} {ps : BMap (Participant G1)}
    {E : List (PVSSShare r G1 G2 × (ZMod r)[X])} (hE : Spec.Published S cfg ps E) {a b : AggShare r G1 G2}
    {l l' : List (PVSSShare r G1 G2 × (ZMod r)[X])} (ha : Spec.HonestTx S cfg ps a l) (hb : Spec.HonestTx S cfg ps b l')
    (hl : l ⊆ E) (hl' : l' ⊆ E) :
    ∀ i x w y w', a.contributions.get i = some (x, w) → b.contributions.get i = some (y, w') → x = y := by
  intro i x w y w' hx hy
  obtain ⟨⟨e, he, hi, rfl⟩, -⟩ := (honest_contribs ha).1 i x w hx
  obtain ⟨⟨e', he', hi', rfl⟩, -⟩ := (honest_contribs hb).1 i y w' hy
  rw [published_unique hE (hl he) (hl' he') (by rw [hi, hi'])]

theorem honest_merge_ok {S : Suite r G1 G2 K} {cfg : Config G1 G2} {ps : BMap (Participant G1)}
    (hn1 : 1 ≤ cfg.numParticipants) {E : List (PVSSShare r G1 G2 × (ZMod r)[X])} (hE : Spec.Published S cfg ps E)
    {a b : AggShare r G1 G2} {l l' : List (PVSSShare r G1 G2 × (ZMod r)[X])} (ha : Spec.HonestTx S cfg ps a l)
    (hb : Spec.HonestTx S cfg ps b l') (hl : l ⊆ E) (hl' : l' ⊆ E) (m : Mode)
    (hadd : ∀ i x y, a.contributions.get i = some x → b.contributions.get i = some y →
      ∃ w, (addWeight m x.2 y.2 : Res PVSSError _) = .ok w) : ∃ c, a.aggregate m b = .ok c := by
  have wa := honest_wellFormed ha
  have wb := honest_wellFormed hb
  have hsame := honest_same hE ha hb hl hl'
  have hv : ∀ i, ∃ v, mergeVal m (a.contributions.get i) (b.contributions.get i) = .ok v := by
    intro i
    cases hx : a.contributions.get i with
    | none => exact ⟨_, mergeVal_none_left _ _⟩
    | some x =>
      cases hy : b.contributions.get i with
      | none => exact ⟨_, mergeVal_none_right _ _⟩
      | some y =>
        obtain ⟨w, hw⟩ := hadd i x y hx hy
        exact ⟨_, (mergeVal_some_ok_iff m x.1 y.1 x.2 y.2 _).2
          ⟨by rw [hsame i x.1 x.2 y.1 y.2 hx hy], _, hw, rfl⟩⟩
  choose v hv using hv
  obtain ⟨c, hc, -⟩ := aggregate_exists (m := m) (a := a) (b := b)
    ⟨(a.core.encs.zip b.core.encs).map fun e => e.1 + e.2, (a.core.comms.zip b.core.comms).map fun e => e.1 + e.2⟩ v
    (by rw [wa.degree, wb.degree]) (by rw [wa.num, wb.num])
    ((coreAggregate_iff _ _ _).2 ⟨by
      intro h0
      have := wa.comms_length
      rw [h0] at this
      simp at this
      omega, by rw [wa.comms_length, wb.comms_length], by rw [wa.encs_length, wb.encs_length],
      by rw [wa.comms_length, wa.encs_length], rfl, rfl⟩) (fun i _ => hv i)
  exact ⟨c, hc⟩

theorem honest_merge {S : Suite r G1 G2 K} {cfg : Config G1 G2} {ps : BMap (Participant G1)} (hn1 : 1 ≤ cfg.numParticipants)
    {E : List (PVSSShare r G1 G2 × (ZMod r)[X])} (hE : Spec.Published S cfg ps E) {a b : AggShare r G1 G2}
    {l l' : List (PVSSShare r G1 G2 × (ZMod r)[X])} (ha : Spec.HonestTx S cfg ps a l) (hb : Spec.HonestTx S cfg ps b l')
    (hl : l ⊆ E) (hl' : l' ⊆ E) (m : Mode) :
    ((∀ i, Spec.weightOf a i + Spec.weightOf b i < 2 ^ 64) →
      ∃ c, a.aggregate m b = .ok c ∧ a.aggregate .checked b = .ok c ∧
        ∀ i, Spec.weightOf c i = Spec.weightOf a i + Spec.weightOf b i) ∧
    (¬ (∀ i, Spec.weightOf a i + Spec.weightOf b i < 2 ^ 64) → a.aggregate .checked b = .panic) := by
  have wa := honest_wellFormed ha
  have wb := honest_wellFormed hb
  have hsame := honest_same hE ha hb hl hl'
  constructor
  · intro hfit
    obtain ⟨c, hc⟩ := honest_merge_ok hn1 hE ha hb hl hl' m fun i x y hx hy => by
      have h64 := hfit i
      simp only [Spec.weightOf, hx, hy, Option.elim] at h64
      exact ⟨_, addWeight_noOverflow m h64⟩
    have hck : a.aggregate .checked b = .ok c := by
      refine aggregate_to_checked hc fun i x w y w' hx hy => ?_
      have := hfit i
      simpa only [Spec.weightOf, hx, hy, Option.elim] using this
    refine ⟨c, hc, hck, fun i => ?_⟩
    rw [weightOf_honest (.merge ha hb hck), weightOf_honest ha, weightOf_honest hb, List.countP_append]
  · intro hfit
    cases h : a.aggregate .checked b with
    | panic => rfl
    | diverge => exact absurd h aggregate_ne_diverge
    | err e =>
      rcases aggregate_err h with ⟨h1 | h1, -⟩ | ⟨-, -, -, i, -, x, w, y, w', hx, hy, hne⟩
      · exact absurd (by rw [wa.degree, wb.degree]) h1
      · exact absurd (by rw [wa.num, wb.num]) h1
      · exact absurd (by rw [hsame i x w y w' hx hy]) hne
    | ok c =>
      refine absurd (fun i => ?_) hfit
      have hc := weightOf_honest (.merge ha hb h) i
      rw [List.countP_append, ← weightOf_honest ha, ← weightOf_honest hb] at hc
      rw [← hc]
      unfold Spec.weightOf
      cases c.contributions.get i with
      | none => simp
      | some v => exact v.2.toNat_lt

theorem weightOf_ofShare (t n : ℕ) (sh : PVSSShare r G1 G2) (i : ℕ) :
    Spec.weightOf (AggShare.ofShare t n sh) i = if i = sh.participantId then 1 else 0 := by
  unfold Spec.weightOf
  rw [get_ofShare]
  split <;> rfl

/-- A message made of the published shares `E`. -/
def Spec.FromPublished (S : Suite r G1 G2 K) (cfg : Config G1 G2) (ps : BMap (Participant G1))
    (E : List (PVSSShare r G1 G2 × (ZMod r)[X])) : Op r G1 G2 → Prop
  | .share _ sh => ∃ e ∈ E, e.1 = sh
  | .agg _ ag => ∃ l, Spec.HonestTx S cfg ps ag l ∧ l ⊆ E

theorem honest_step (S : Suite r G1 G2 K) (hS : PairLaws S) (m : Mode) (a : Aggregator r G1 G2)
    (E : List (PVSSShare r G1 G2 × (ZMod r)[X])) (hE : Spec.Published S a.config a.participants E)
    (hreg : ∀ i < a.config.numParticipants, a.participants.get i ≠ none)
    (hn : a.config.numParticipants ≤ r) (hcap : a.config.numParticipants < 2 ^ 58)
    (ht : a.config.degree + 2 ≤ a.config.numParticipants)
    (ha : ∃ l, Spec.HonestTx S a.config a.participants a.tx l ∧ l ⊆ E) (op : Op r G1 G2)
    (hop : Spec.FromPublished S a.config a.participants E op) :
    ((∀ i, Spec.weightOf a.tx i + Spec.opWeight op i < 2 ^ 64) →
      a.step S m op = a.step S .checked op ∧ (a.step S m op).1 = .ok () ∧
      (∃ l, Spec.HonestTx S a.config a.participants (a.step S m op).2.tx l ∧ l ⊆ E) ∧
      ∀ i, Spec.weightOf (a.step S m op).2.tx i = Spec.weightOf a.tx i + Spec.opWeight op i) ∧
    (¬ (∀ i, Spec.weightOf a.tx i + Spec.opWeight op i < 2 ^ 64) → a.step S .checked op = (.panic, a)) := by
  obtain ⟨l, hl, hlE⟩ := ha
  have hw := honest_wellFormed hl
  cases op with
  | share rng sh =>
    obtain ⟨e, he, rfl⟩ := hop
    have hg := hE.good e he
    have hb : Spec.HonestTx S a.config a.participants (AggShare.ofShare a.config.degree a.config.numParticipants e.1) [(e.1, e.2)] :=
      .share hg
    have hbE : [(e.1, e.2)] ⊆ E := by
      intro x hx
      rw [List.mem_singleton] at hx
      rw [hx]
      exact he
    have hsum : ∀ i, Spec.opWeight (.share rng e.1) i =
        Spec.weightOf (AggShare.ofShare a.config.degree a.config.numParticipants e.1) i := fun i => by
      rw [weightOf_ofShare]; rfl
    simp only [hsum]
    constructor
    · intro hfit
      obtain ⟨rng', hv⟩ := shareVerify_good S hS m a rng e.1 e.2 hg hn hcap (Or.inl ht)
      obtain ⟨c, hc, hck, hW⟩ := (honest_merge (by omega) hE hl hb hlE hbE m).1 hfit
      obtain ⟨rng2, hv2⟩ := shareVerify_good S hS .checked a rng e.1 e.2 hg hn hcap (Or.inl ht)
      have hs : a.step S m (.share rng e.1) = (.ok (), { a with tx := c }) :=
        (receiveShare_ok_iff _ _ _ _ _ _).2 ⟨rng', c, hv, by
          unfold AggShare.aggregatePvssShare; rw [hw.degree, hw.num]; exact hc, rfl⟩
      have hs2 : a.step S .checked (.share rng e.1) = (.ok (), { a with tx := c }) :=
        (receiveShare_ok_iff _ _ _ _ _ _).2 ⟨rng2, c, hv2, by
          unfold AggShare.aggregatePvssShare; rw [hw.degree, hw.num]; exact hck, rfl⟩
      rw [hs, hs2]
      exact ⟨rfl, rfl, ⟨_, .merge hl hb hck, List.append_subset.2 ⟨hlE, hbE⟩⟩, hW⟩
    · intro hfit
      obtain ⟨rng', hv⟩ := shareVerify_good S hS .checked a rng e.1 e.2 hg hn hcap (Or.inl ht)
      have hp := (honest_merge (by omega) hE hl hb hlE hbE .checked).2 hfit
      show a.receiveShare S .checked rng e.1 = _
      unfold Aggregator.receiveShare AggShare.aggregatePvssShare
      rw [hv, hw.degree, hw.num, hp]
      rfl
  | agg rng ag =>
    obtain ⟨l', hb, hbE⟩ := hop
    have hacc := fun m => C32 S hS m a ag l' hb hreg hn hcap (Or.inl ht) rng
    constructor
    · intro hfit
      obtain ⟨rng', hv⟩ := hacc m
      obtain ⟨c, hc, hck, hW⟩ := (honest_merge (by omega) hE hl hb hlE hbE m).1 hfit
      obtain ⟨rng2, hv2⟩ := hacc .checked
      have hs : a.step S m (.agg rng ag) = (.ok (), { a with tx := c }) :=
        (receiveAgg_ok_iff _ _ _ _ _ _).2 ⟨rng', c, hv, hc, rfl⟩
      have hs2 : a.step S .checked (.agg rng ag) = (.ok (), { a with tx := c }) :=
        (receiveAgg_ok_iff _ _ _ _ _ _).2 ⟨rng2, c, hv2, hck, rfl⟩
      rw [hs, hs2]
      exact ⟨rfl, rfl, ⟨_, .merge hl hb hck, List.append_subset.2 ⟨hlE, hbE⟩⟩, hW⟩
    · intro hfit
      obtain ⟨rng', hv⟩ := hacc .checked
      have hp := (honest_merge (by omega) hE hl hb hlE hbE .checked).2 hfit
      show a.receiveAggregatedShare S .checked rng ag = _
      unfold Aggregator.receiveAggregatedShare
      rw [hv, hp]
      rfl

/-! ### Executions -/

/-- The setting: complete registration, room for the degree test, and published shares of honest dealers. -/
structure Spec.Setting (S : Suite r G1 G2 K) (cfg : Config G1 G2) (ps : BMap (Participant G1))
    (E : List (PVSSShare r G1 G2 × (ZMod r)[X])) : Prop where
  registered : ∀ i < cfg.numParticipants, ps.get i ≠ none
  n_le : cfg.numParticipants ≤ r
  cap : cfg.numParticipants < 2 ^ 58
  deg : cfg.degree + 2 ≤ cfg.numParticipants
  published : Spec.Published S cfg ps E

/-- The invariant of the network. -/
structure NetInv (S : Suite r G1 G2 K) (cfg : Config G1 G2) (ps : BMap (Participant G1))
    (E : List (PVSSShare r G1 G2 × (ZMod r)[X])) (N : Spec.Net r G1 G2) : Prop where
  config : ∀ j, (N.node j).config = cfg
  parts : ∀ j, (N.node j).participants = ps
  node : ∀ j, ∃ l, Spec.HonestTx S cfg ps (N.node j).tx l ∧ l ⊆ E
  post : ∀ tx ∈ N.posts, ∃ l, Spec.HonestTx S cfg ps tx l ∧ l ⊆ E

theorem netInv_start (S : Suite r G1 G2 K) (cfg : Config G1 G2) (ps : BMap (Participant G1))
    (E : List (PVSSShare r G1 G2 × (ZMod r)[X])) : NetInv S cfg ps E (.start cfg ps) :=
  ⟨fun _ => rfl, fun _ => rfl, fun _ => ⟨[], .empty, by simp⟩, fun tx h => by cases h⟩

theorem netInv_call {S : Suite r G1 G2 K} {cfg : Config G1 G2} {ps : BMap (Participant G1)}
    {E : List (PVSSShare r G1 G2 × (ZMod r)[X])} {N : Spec.Net r G1 G2} (hN : NetInv S cfg ps E N) {e : Spec.Ev r} {j op}
    (h : N.call (E.map (·.1)) e = some (j, op)) : Spec.FromPublished S cfg ps E op := by
  cases e with
  | share j' rng k =>
    simp only [Spec.Net.call, Option.map_eq_some_iff] at h
    obtain ⟨sh, hk, h⟩ := h
    obtain ⟨-, rfl⟩ := Prod.mk.inj h
    have := List.mem_of_getElem? hk
    rw [List.mem_map] at this
    exact this
  | post i => cases h
  | merge j' rng k =>
    simp only [Spec.Net.call, Option.map_eq_some_iff] at h
    obtain ⟨tx, hk, h⟩ := h
    obtain ⟨-, rfl⟩ := Prod.mk.inj h
    exact hN.post _ (List.mem_of_getElem? hk)

/-- One event of the network. -/
theorem net_step {S : Suite r G1 G2 K} (hS : PairLaws S) {cfg : Config G1 G2} {ps : BMap (Participant G1)}
    {E : List (PVSSShare r G1 G2 × (ZMod r)[X])} (hE : Spec.Setting S cfg ps E) {N : Spec.Net r G1 G2}
    (hN : NetInv S cfg ps E N) (m : Mode) (e : Spec.Ev r) :
    (N.Fits (E.map (·.1)) e → N.step S m (E.map (·.1)) e = N.step S .checked (E.map (·.1)) e ∧
      N.outcome S m (E.map (·.1)) e = .ok () ∧ NetInv S cfg ps E (N.step S m (E.map (·.1)) e) ∧
      ∀ j op, N.call (E.map (·.1)) e = some (j, op) →
        ∀ i, Spec.weightOf ((N.step S m (E.map (·.1)) e).node j).tx i = Spec.weightOf (N.node j).tx i + Spec.opWeight op i) ∧
    (¬ N.Fits (E.map (·.1)) e →
      N.outcome S .checked (E.map (·.1)) e = .panic ∧ N.step S .checked (E.map (·.1)) e = N) := by
  have key : ∀ m j op, N.call (E.map (·.1)) e = some (j, op) → _ := fun m j op h =>
    honest_step S hS m (N.node j) E (by rw [hN.config, hN.parts]; exact hE.published)
      (by rw [hN.config, hN.parts]; exact hE.registered) (by rw [hN.config]; exact hE.n_le)
      (by rw [hN.config]; exact hE.cap) (by rw [hN.config]; exact hE.deg) (by rw [hN.config, hN.parts]; exact hN.node j) op
      (by rw [hN.config, hN.parts]; exact netInv_call hN h)
  constructor
  · intro hfit
    cases hc : N.call (E.map (·.1)) e with
    | none =>
      have hnode : (N.step S m (E.map (·.1)) e).node = N.node := by simp only [Spec.Net.step, hc]
      refine ⟨by simp only [Spec.Net.step, hc], by simp only [Spec.Net.outcome, hc], ⟨?_, ?_, ?_, ?_⟩, fun j op h => by cases h⟩
      · rw [hnode]; exact hN.config
      · rw [hnode]; exact hN.parts
      · rw [hnode]; exact hN.node
      · intro tx htx
        cases e with
        | share j rng k => exact hN.post tx htx
        | merge j rng k => exact hN.post tx htx
        | post i =>
          simp only [Spec.Net.step, List.mem_append, List.mem_singleton] at htx
          rcases htx with h | rfl
          · exact hN.post tx h
          · exact hN.node i
    | some c =>
      obtain ⟨j, op⟩ := c
      obtain ⟨h0, h1, h2, h3⟩ := (key m j op hc).1 (hfit j op hc)
      have hnode : (N.step S m (E.map (·.1)) e).node = Function.update N.node j ((N.node j).step S m op).2 := by
        simp only [Spec.Net.step, hc]
      have hposts : (N.step S m (E.map (·.1)) e).posts = N.posts := by
        cases e with
        | share j rng k => rfl
        | merge j rng k => rfl
        | post i => cases hc
      obtain ⟨-, hcfg, hps⟩ := C19 S m (N.node j) op
      refine ⟨by simp only [Spec.Net.step, hc, h0], by simp only [Spec.Net.outcome, hc]; exact h1, ⟨fun i => ?_, fun i => ?_, fun i => ?_, ?_⟩, ?_⟩
      · rw [hnode]
        by_cases hi : i = j
        · subst hi; rw [Function.update_self, hcfg]; exact hN.config i
        · rw [Function.update_of_ne hi]; exact hN.config i
      · rw [hnode]
        by_cases hi : i = j
        · subst hi; rw [Function.update_self, hps]; exact hN.parts i
        · rw [Function.update_of_ne hi]; exact hN.parts i
      · rw [hnode]
        by_cases hi : i = j
        · subst hi; rw [Function.update_self]; rw [hN.config, hN.parts] at h2; exact h2
        · rw [Function.update_of_ne hi]; exact hN.node i
      · rw [hposts]; exact hN.post
      · intro j' op' h
        obtain ⟨rfl, rfl⟩ := Prod.mk.inj (Option.some.inj h)
        rw [hnode, Function.update_self]
        exact h3
  · intro hfit
    unfold Spec.Net.Fits at hfit
    push Not at hfit
    obtain ⟨j, op, hc, i, hi⟩ := hfit
    have hp := (key .checked j op hc).2 (fun h => by have := h i; omega)
    refine ⟨by simp only [Spec.Net.outcome, hc, hp], ?_⟩
    have hposts : (N.step S .checked (E.map (·.1)) e).posts = N.posts := by
      cases e with
      | share j rng k => rfl
      | merge j rng k => rfl
      | post i => cases hc
    have hnode : (N.step S .checked (E.map (·.1)) e).node = N.node := by
      simp only [Spec.Net.step, hc, hp, Function.update_eq_self]
    calc N.step S .checked (E.map (·.1)) e =
        ⟨(N.step S .checked (E.map (·.1)) e).node, (N.step S .checked (E.map (·.1)) e).posts⟩ := rfl
      _ = ⟨N.node, N.posts⟩ := by rw [hnode, hposts]
      _ = N := rfl

theorem netInv_run {S : Suite r G1 G2 K} (hS : PairLaws S) {cfg : Config G1 G2} {ps : BMap (Participant G1)}
    {E : List (PVSSShare r G1 G2 × (ZMod r)[X])} (hE : Spec.Setting S cfg ps E) (evs : List (Spec.Ev r))
    {N : Spec.Net r G1 G2} (hN : NetInv S cfg ps E N) : NetInv S cfg ps E (N.run S .checked (E.map (·.1)) evs) := by
  induction evs generalizing N with
  | nil => exact hN
  | cons e evs ih =>
    refine ih (N := N.step S .checked (E.map (·.1)) e) ?_
    by_cases hf : N.Fits (E.map (·.1)) e
    · exact ((net_step hS hE hN .checked e).1 hf).2.2.1
    · rw [((net_step hS hE hN .checked e).2 hf).2]; exact hN

/-- Sums over a list with repetitions, collected by dealer. -/
theorem sum_by_dealer {S : Suite r G1 G2 K} {cfg : Config G1 G2} {ps : BMap (Participant G1)}
    {E : List (PVSSShare r G1 G2 × (ZMod r)[X])} (hE : Spec.Published S cfg ps E) {M : Type} [AddCommMonoid M]
    (f : PVSSShare r G1 G2 × (ZMod r)[X] → M) (l : List (PVSSShare r G1 G2 × (ZMod r)[X])) (hl : l ⊆ E) :
    (l.map f).sum = (E.map fun e => (l.countP fun d => d.1.participantId = e.1.participantId) • f e).sum := by
  induction l with
  | nil => simp
  | cons x l ih =>
    have hx : x ∈ E := hl (by simp)
    rw [List.map_cons, List.sum_cons, ih fun y hy => hl (by simp [hy])]
    have hsplit : ∀ e ∈ E, (List.countP (fun d => decide (d.1.participantId = e.1.participantId)) (x :: l)) • f e =
        (if e.1.participantId = x.1.participantId then f e else 0) +
          (List.countP (fun d => decide (d.1.participantId = e.1.participantId)) l) • f e := by
      intro e _
      rw [List.countP_cons]
      by_cases h : e.1.participantId = x.1.participantId
      · rw [if_pos h, if_pos (by simp [h]), add_smul, one_smul, add_comm]
      · rw [if_neg h, if_neg (by simpa using fun h' => h h'.symm), add_zero, zero_add]
    rw [List.map_congr_left hsplit, List.sum_map_add]
    congr 1
    clear ih hsplit hl
    have hu : ∀ e ∈ E, e.1.participantId = x.1.participantId → e = x := fun e he h => published_unique hE he hx h
    have hnd : E.Nodup := List.Nodup.of_map _ hE.nodup
    clear hE
    induction E with
    | nil => cases hx
    | cons y E ih =>
      rw [List.map_cons, List.sum_cons]
      rw [List.nodup_cons] at hnd
      rcases List.mem_cons.1 hx with rfl | hx'
      · rw [if_pos rfl, List.sum_eq_zero, add_zero]
        intro z hz
        rw [List.mem_map] at hz
        obtain ⟨e, he, rfl⟩ := hz
        rw [if_neg]
        intro h
        exact hnd.1 (hu e (by simp [he]) h ▸ he)
      · rw [if_neg, zero_add]
        · exact ih hx' (fun e he h => hu e (by simp [he]) h) hnd.2
        · intro h
          exact hnd.1 (hu y (by simp) h ▸ hx')

/-- The secret a transcript holds: the weighted sum of the dealt secrets. -/
noncomputable def Spec.weightedSecret (E : List (PVSSShare r G1 G2 × (ZMod r)[X])) (tx : AggShare r G1 G2) : ZMod r :=
  (E.map fun e => (Spec.weightOf tx e.1.participantId : ZMod r) * e.2.eval 0).sum

theorem totalPoly_by_dealer {S : Suite r G1 G2 K} {cfg : Config G1 G2} {ps : BMap (Participant G1)}
    {E : List (PVSSShare r G1 G2 × (ZMod r)[X])} (hE : Spec.Published S cfg ps E) {tx : AggShare r G1 G2}
    {l : List (PVSSShare r G1 G2 × (ZMod r)[X])} (hl : Spec.HonestTx S cfg ps tx l) (hlE : l ⊆ E) :
    Spec.totalPoly l = (E.map fun e => Spec.weightOf tx e.1.participantId • e.2).sum := by
  unfold Spec.totalPoly
  rw [sum_by_dealer hE _ l hlE]
  congr 1
  refine List.map_congr_left fun e _ => ?_
  rw [weightOf_honest hl]

theorem eval_totalPoly {S : Suite r G1 G2 K} {cfg : Config G1 G2} {ps : BMap (Participant G1)}
    {E : List (PVSSShare r G1 G2 × (ZMod r)[X])} (hE : Spec.Published S cfg ps E) {tx : AggShare r G1 G2}
    {l : List (PVSSShare r G1 G2 × (ZMod r)[X])} (hl : Spec.HonestTx S cfg ps tx l) (hlE : l ⊆ E) :
    (Spec.totalPoly l).eval 0 = Spec.weightedSecret E tx := by
  rw [totalPoly_by_dealer hE hl hlE, Spec.weightedSecret]
  generalize Spec.weightOf tx = W
  clear hE hlE hl
  induction E with
  | nil => simp
  | cons e E ih =>
    rw [List.map_cons, List.sum_cons, List.map_cons, List.sum_cons, eval_add, ih, nsmul_eq_mul, eval_mul, eval_natCast]

/-! ### C83 -/

/-- **C83**. Whatever the network does, in a build with overflow checks: every transcript a node holds, and every transcript
it ever posted, is accepted by every node with every random stream and in every build mode; its weights belong to published
shares; and every admissible set of honest decryptions reconstructs the sum of the dealt secrets, each with its weight. -/
theorem C83 (S : Suite r G1 G2 K) (hS : PairLaws S) (cfg : Config G1 G2) (ps : BMap (Participant G1))
    (E : List (PVSSShare r G1 G2 × (ZMod r)[X])) (hE : Spec.Setting S cfg ps E) (evs : List (Spec.Ev r))
    (tx : AggShare r G1 G2)
    (htx : let N := (Spec.Net.start cfg ps).run S .checked (E.map (·.1)) evs
      (∃ j, tx = (N.node j).tx) ∨ tx ∈ N.posts) :
    (∀ (peer : Aggregator r G1 G2) (m : Mode) (rng : Rng r), peer.config = cfg → peer.participants = ps →
      ∃ rng', peer.aggregationVerify S m rng tx = .ok rng') ∧
    (∀ i x w, tx.contributions.get i = some (x, w) → w ≠ 0 ∧ ∃ e ∈ E, e.1.participantId = i ∧ e.1.signedProof = x) ∧
    (∀ (m : Mode) (pk : ℕ → G1) (sk : ℕ → ZMod r) (ids : List ℕ) (ds : List (DecryptedShare G1)),
      Spec.KeyTable ps cfg.numParticipants pk → Spec.Selection cfg.numParticipants cfg.degree ids →
      (∀ i ∈ ids, sk i ≠ 0 ∧ pk i = sk i • cfg.srs.g1) → Spec.Decrypted tx.core.encs sk ids ds →
      lagrangeG1 m (ds.map (·.dec)) (ds.map fun d => Spec.point r d.origin) cfg.degree =
        .ok (Spec.weightedSecret E tx • cfg.srs.g1)) := by
  have hN := netInv_run hS hE evs (netInv_start S cfg ps E)
  have : ∃ l, Spec.HonestTx S cfg ps tx l ∧ l ⊆ E := by
    rcases htx with ⟨j, rfl⟩ | h
    · exact hN.node j
    · exact hN.post tx h
  obtain ⟨l, hl, hlE⟩ := this
  refine ⟨fun peer m rng h1 h2 => ?_, fun i x w hx => ?_, fun m pk sk ids ds hk hsel hsk hd => ?_⟩
  · exact C32 S hS m peer tx l (by rw [h1, h2]; exact hl) (by rw [h1, h2]; exact hE.registered) (by rw [h1]; exact hE.n_le)
      (by rw [h1]; exact hE.cap) (by rw [h1]; exact Or.inl hE.deg) rng
  · obtain ⟨⟨e, he, k1, k2⟩, k3⟩ := (honest_contribs hl).1 i x w hx
    refine ⟨?_, e, hlE he, k1, k2⟩
    rintro rfl
    have := List.countP_eq_zero.1 k3.symm e he
    simp [k1] at this
  · rw [(C11 S hS m cfg ps tx l hl pk hk hE.n_le sk ids hsel hsk ds hd).1, eval_totalPoly hE.published hl hlE]

/-- Transcripts made of published shares are determined by their weights. -/
theorem honest_agree {S : Suite r G1 G2 K} {cfg : Config G1 G2} {ps : BMap (Participant G1)}
    {E : List (PVSSShare r G1 G2 × (ZMod r)[X])} (hE : Spec.Published S cfg ps E)
    (hreg : ∀ i < cfg.numParticipants, ps.get i ≠ none) {a b : AggShare r G1 G2}
    {l l' : List (PVSSShare r G1 G2 × (ZMod r)[X])} (hl : Spec.HonestTx S cfg ps a l) (hl' : Spec.HonestTx S cfg ps b l')
    (hlE : l ⊆ E) (hlE' : l' ⊆ E) (hw : ∀ i, Spec.weightOf a i = Spec.weightOf b i) : a = b := by
  have wa := honest_wellFormed hl
  have wb := honest_wellFormed hl'
  have hpoly : Spec.totalPoly l = Spec.totalPoly l' := by
    rw [totalPoly_by_dealer hE hl hlE, totalPoly_by_dealer hE hl' hlE']
    simp only [hw]
  have hk : Spec.KeyTable ps cfg.numParticipants
      (fun i => match ps.get i with | some q => q.pkSig | none => 0) := by
    intro i hi
    cases hg : ps.get i with
    | none => exact absurd hg (hreg i hi)
    | some q => exact ⟨q, rfl, by simp [hg]⟩
  have hs := honest_shares hl hk
  have hs' := honest_shares hl' hk
  rw [← hpoly] at hs'
  have hcore : a.core = b.core := by
    have h1 : a.core.encs = b.core.encs :=
      List.ext_getElem (by rw [hs.encs_length, hs'.encs_length]) fun i h h' => by rw [hs.enc i h, hs'.enc i h']
    have h2 : a.core.comms = b.core.comms :=
      List.ext_getElem (by rw [hs.comms_length, hs'.comms_length]) fun i h h' => by rw [hs.comm i h, hs'.comm i h']
    calc a.core = ⟨a.core.encs, a.core.comms⟩ := rfl
      _ = b.core := by rw [h1, h2]
  have hcon : a.contributions = b.contributions := by
    refine BMap.ext fun i => ?_
    have hi : Spec.weightOf a i = Spec.weightOf b i := hw i
    have hpos : ∀ {tx : AggShare r G1 G2} {l : List (PVSSShare r G1 G2 × (ZMod r)[X])}, Spec.HonestTx S cfg ps tx l →
        ∀ v, tx.contributions.get i = some v → Spec.weightOf tx i ≠ 0 := by
      intro tx l h v hv h0
      rw [weightOf_honest h, List.countP_eq_zero] at h0
      obtain ⟨⟨e, he, k, -⟩, -⟩ := (honest_contribs h).1 i v.1 v.2 hv
      have := h0 e he
      simp [k] at this
    cases hg : a.contributions.get i with
    | none =>
      have h0 : Spec.weightOf a i = 0 := by simp [Spec.weightOf, hg]
      cases hg' : b.contributions.get i with
      | none => rfl
      | some v => exact absurd (hi ▸ h0) (hpos hl' v hg')
    | some v =>
      cases hg' : b.contributions.get i with
      | none =>
        have h0 : Spec.weightOf b i = 0 := by simp [Spec.weightOf, hg']
        exact absurd (hi ▸ h0) (hpos hl v hg)
      | some v' =>
        obtain ⟨⟨e, he, k1, k2⟩, -⟩ := (honest_contribs hl).1 i v.1 v.2 hg
        obtain ⟨⟨e', he', k1', k2'⟩, -⟩ := (honest_contribs hl').1 i v'.1 v'.2 hg'
        have : e = e' := published_unique hE (hlE he) (hlE' he') (by rw [k1, k1'])
        subst this
        have h2 : v.2 = v'.2 := by
          simp only [Spec.weightOf, hg, hg', Option.elim] at hi
          exact UInt64.toNat_inj.1 hi
        rw [show v = (v.1, v.2) from rfl, show v' = (v'.1, v'.2) from rfl, ← k2, ← k2', h2]
  calc a = ⟨a.numParticipants, a.degree, a.core, a.contributions⟩ := rfl
    _ = b := by rw [hcore, hcon, wa.num, wa.degree, ← wb.num, ← wb.degree]

/-- **C83** (agreement). Two transcripts held or ever posted in the network with the same weights are equal: the weights
determine the encryptions, the commitments and the signed proofs. -/
theorem C83_agree (S : Suite r G1 G2 K) (hS : PairLaws S) (cfg : Config G1 G2) (ps : BMap (Participant G1))
    (E : List (PVSSShare r G1 G2 × (ZMod r)[X])) (hE : Spec.Setting S cfg ps E) (evs : List (Spec.Ev r))
    (tx tx' : AggShare r G1 G2)
    (htx : let N := (Spec.Net.start cfg ps).run S .checked (E.map (·.1)) evs
      ((∃ j, tx = (N.node j).tx) ∨ tx ∈ N.posts) ∧ ((∃ j, tx' = (N.node j).tx) ∨ tx' ∈ N.posts))
    (hw : ∀ i, Spec.weightOf tx i = Spec.weightOf tx' i) : tx = tx' := by
  have hN := netInv_run hS hE evs (netInv_start S cfg ps E)
  have key : ∀ tx, ((∃ j, tx = (((Spec.Net.start cfg ps).run S .checked (E.map (·.1)) evs).node j).tx) ∨
      tx ∈ ((Spec.Net.start cfg ps).run S .checked (E.map (·.1)) evs).posts) → ∃ l, Spec.HonestTx S cfg ps tx l ∧ l ⊆ E := by
    rintro tx (⟨j, rfl⟩ | h)
    · exact hN.node j
    · exact hN.post tx h
  obtain ⟨l, hl, hlE⟩ := key tx htx.1
  obtain ⟨l', hl', hlE'⟩ := key tx' htx.2
  exact honest_agree hE.published hE.registered hl hl' hlE hlE' hw

/-- **C83** (outcomes). Every event of every execution succeeds unless it would take a weight to `2^64` or more; in that case
it panics and changes nothing. A successful delivery adds exactly the weights of the message to those of the receiver. -/
theorem C83_outcome (S : Suite r G1 G2 K) (hS : PairLaws S) (cfg : Config G1 G2) (ps : BMap (Participant G1))
    (E : List (PVSSShare r G1 G2 × (ZMod r)[X])) (hE : Spec.Setting S cfg ps E) (evs : List (Spec.Ev r)) (e : Spec.Ev r) :
    let D := E.map (·.1)
    let N := (Spec.Net.start cfg ps).run S .checked D evs
    (N.Fits D e → N.outcome S .checked D e = .ok () ∧
      ∀ j op, N.call D e = some (j, op) → ∀ i,
        Spec.weightOf ((N.step S .checked D e).node j).tx i = Spec.weightOf (N.node j).tx i + Spec.opWeight op i) ∧
    (¬ N.Fits D e → N.outcome S .checked D e = .panic ∧ N.step S .checked D e = N) := by
  intro D N
  have hN := netInv_run hS hE evs (netInv_start S cfg ps E)
  obtain ⟨h1, h2⟩ := net_step hS hE hN .checked e
  exact ⟨fun h => ⟨(h1 h).2.1, (h1 h).2.2.2⟩, h2⟩

/-! ### C84 -/

/-- Every call of the execution returns `Ok`. -/
def Spec.Net.AllOk (S : Suite r G1 G2 K) (m : Mode) (D : List (PVSSShare r G1 G2)) :
    Spec.Net r G1 G2 → List (Spec.Ev r) → Prop
  | _, [] => True
  | N, e :: evs => N.outcome S m D e = .ok () ∧ Spec.Net.AllOk S m D (N.step S m D e) evs

theorem allOk_append {S : Suite r G1 G2 K} {m : Mode} {D : List (PVSSShare r G1 G2)} {N : Spec.Net r G1 G2}
    {evs evs' : List (Spec.Ev r)} :
    Spec.Net.AllOk S m D N (evs ++ evs') ↔ Spec.Net.AllOk S m D N evs ∧ Spec.Net.AllOk S m D (N.run S m D evs) evs' := by
  induction evs generalizing N with
  | nil => simp [Spec.Net.AllOk, Spec.Net.run]
  | cons e evs ih =>
    have h : N.run S m D (e :: evs) = (N.step S m D e).run S m D evs := rfl
    rw [List.cons_append, h]
    simp only [Spec.Net.AllOk, ih, and_assoc]

/-- Deliveries of shares in an execution. -/
def Spec.shareCount : List (Spec.Ev r) → ℕ
  | [] => 0
  | .share _ _ _ :: evs => Spec.shareCount evs + 1
  | _ :: evs => Spec.shareCount evs

/-- Deliveries of transcripts in an execution. -/
def Spec.mergeCount : List (Spec.Ev r) → ℕ
  | [] => 0
  | .merge _ _ _ :: evs => Spec.mergeCount evs + 1
  | _ :: evs => Spec.mergeCount evs

/-- The claim: nodes that only ever receive shares of honest dealers and transcripts of honest nodes never fail. -/
def C84_claim (S : Suite r G1 G2 K) (m : Mode) (cfg : Config G1 G2) (ps : BMap (Participant G1))
    (E : List (PVSSShare r G1 G2 × (ZMod r)[X])) : Prop :=
  ∀ evs : List (Spec.Ev r), Spec.Net.AllOk S m (E.map (·.1)) (.start cfg ps) evs

theorem bounded_run {S : Suite r G1 G2 K} (hS : PairLaws S) {cfg : Config G1 G2} {ps : BMap (Participant G1)}
    {E : List (PVSSShare r G1 G2 × (ZMod r)[X])} (hE : Spec.Setting S cfg ps E) (m : Mode) (evs : List (Spec.Ev r)) (B : ℕ)
    (N : Spec.Net r G1 G2) (hN : NetInv S cfg ps E N) (hB : ∀ j i, Spec.weightOf (N.node j).tx i ≤ B)
    (hB' : ∀ tx ∈ N.posts, ∀ i, Spec.weightOf tx i ≤ B)
    (hlt : (B + Spec.shareCount evs) * 2 ^ Spec.mergeCount evs < 2 ^ 64) :
    N.AllOk S m (E.map (·.1)) evs ∧ N.run S m (E.map (·.1)) evs = N.run S .checked (E.map (·.1)) evs ∧
    ∀ j i, Spec.weightOf ((N.run S m (E.map (·.1)) evs).node j).tx i ≤
      (B + Spec.shareCount evs) * 2 ^ Spec.mergeCount evs := by
  induction evs generalizing N B with
  | nil =>
    refine ⟨trivial, rfl, fun j i => (hB j i).trans ?_⟩
    simp [Spec.shareCount, Spec.mergeCount]
  | cons e evs ih =>
    have hrun : ∀ m, N.run S m (E.map (·.1)) (e :: evs) = (N.step S m (E.map (·.1)) e).run S m (E.map (·.1)) evs :=
      fun _ => rfl
    -- a bound on the weights after the event
    have key : ∃ B', N.Fits (E.map (·.1)) e ∧
        (∀ j op, N.call (E.map (·.1)) e = some (j, op) → ∀ i, Spec.weightOf (N.node j).tx i + Spec.opWeight op i ≤ B') ∧
        B ≤ B' ∧ (B' + Spec.shareCount evs) * 2 ^ Spec.mergeCount evs ≤
          (B + Spec.shareCount (e :: evs)) * 2 ^ Spec.mergeCount (e :: evs) := by
      have hpow : 1 ≤ 2 ^ Spec.mergeCount evs := Nat.one_le_two_pow
      cases e with
      | post i =>
        exact ⟨B, fun j op h => (by cases h), fun j op h => (by cases h), le_rfl, le_rfl⟩
      | share j rng k =>
        have hle : (B + 1 + Spec.shareCount evs) * 2 ^ Spec.mergeCount evs ≤
            (B + Spec.shareCount (.share j rng k :: evs)) * 2 ^ Spec.mergeCount (.share j rng k :: evs) := by
          simp only [Spec.shareCount, Spec.mergeCount]
          exact le_of_eq (by ring)
        have h1 : ∀ j' op, N.call (E.map (·.1)) (.share j rng k) = some (j', op) →
            ∀ i, Spec.weightOf (N.node j').tx i + Spec.opWeight op i ≤ B + 1 := by
          intro j' op h i
          simp only [Spec.Net.call, Option.map_eq_some_iff] at h
          obtain ⟨sh, -, h⟩ := h
          obtain ⟨rfl, rfl⟩ := Prod.mk.inj h
          have := hB j i
          simp only [Spec.opWeight]
          split <;> omega
        have h2 : B + 1 ≤ (B + 1 + Spec.shareCount evs) * 2 ^ Spec.mergeCount evs := by nlinarith
        exact ⟨B + 1, fun j' op h i => lt_of_le_of_lt (h1 j' op h i) (by omega), h1, by omega, hle⟩
      | merge j rng k =>
        have hle : (2 * B + Spec.shareCount evs) * 2 ^ Spec.mergeCount evs ≤
            (B + Spec.shareCount (.merge j rng k :: evs)) * 2 ^ Spec.mergeCount (.merge j rng k :: evs) := by
          simp only [Spec.shareCount, Spec.mergeCount, pow_succ]
          nlinarith
        have h1 : ∀ j' op, N.call (E.map (·.1)) (.merge j rng k) = some (j', op) →
            ∀ i, Spec.weightOf (N.node j').tx i + Spec.opWeight op i ≤ 2 * B := by
          intro j' op h i
          simp only [Spec.Net.call, Option.map_eq_some_iff] at h
          obtain ⟨tx, htx, h⟩ := h
          obtain ⟨rfl, rfl⟩ := Prod.mk.inj h
          have := hB j i
          have := hB' tx (List.mem_of_getElem? htx) i
          simp only [Spec.opWeight]
          omega
        have h2 : 2 * B ≤ (2 * B + Spec.shareCount evs) * 2 ^ Spec.mergeCount evs := by nlinarith
        exact ⟨2 * B, fun j' op h i => lt_of_le_of_lt (h1 j' op h i) (by omega), h1, by omega, hle⟩
    obtain ⟨B', hfit, hb, hBB, hle⟩ := key
    obtain ⟨h1, h2, h3, h4⟩ := (net_step hS hE hN m e).1 hfit
    have hW : ∀ j i, Spec.weightOf ((N.step S m (E.map (·.1)) e).node j).tx i ≤ B' := by
      intro j i
      cases hc : N.call (E.map (·.1)) e with
      | none =>
        have hnode : (N.step S m (E.map (·.1)) e).node = N.node := by simp only [Spec.Net.step, hc]
        rw [hnode]
        exact (hB j i).trans hBB
      | some c =>
        obtain ⟨j', op⟩ := c
        by_cases hj : j = j'
        · subst hj
          rw [h4 j op hc i]
          exact hb j op hc i
        · have hnode : (N.step S m (E.map (·.1)) e).node j = N.node j := by
            simp only [Spec.Net.step, hc]
            rw [Function.update_of_ne hj]
          rw [hnode]
          exact (hB j i).trans hBB
    have hP : ∀ tx ∈ (N.step S m (E.map (·.1)) e).posts, ∀ i, Spec.weightOf tx i ≤ B' := by
      intro tx htx i
      cases e with
      | share j rng k => exact (hB' tx htx i).trans hBB
      | merge j rng k => exact (hB' tx htx i).trans hBB
      | post k =>
        simp only [Spec.Net.step, List.mem_append, List.mem_singleton] at htx
        rcases htx with h | rfl
        · exact (hB' tx h i).trans hBB
        · exact (hB k i).trans hBB
    obtain ⟨k1, k2, k3⟩ := ih B' _ h3 hW hP (lt_of_le_of_lt hle hlt)
    refine ⟨⟨h2, k1⟩, ?_, fun j i => ?_⟩
    · rw [hrun, hrun, k2, h1]
    · rw [hrun]
      exact (k3 j i).trans hle

/-- **C84**, the part that holds: with `s` deliveries of shares and `g` deliveries of transcripts no weight exceeds
`s * 2^g`, and as long as that stays below `2^64` every call returns `Ok`, in every build mode and with the same result as in
the build with overflow checks. Missing from the claim: executions beyond that bound. -/
theorem C84_partial (S : Suite r G1 G2 K) (hS : PairLaws S) (m : Mode) (cfg : Config G1 G2) (ps : BMap (Participant G1))
    (E : List (PVSSShare r G1 G2 × (ZMod r)[X])) (hE : Spec.Setting S cfg ps E) (evs : List (Spec.Ev r))
    (hlt : Spec.shareCount evs * 2 ^ Spec.mergeCount evs < 2 ^ 64) :
    let D := E.map (·.1)
    let N : Spec.Net r G1 G2 := .start cfg ps
    N.AllOk S m D evs ∧ N.run S m D evs = N.run S .checked D evs ∧
    ∀ j i, Spec.weightOf ((N.run S m D evs).node j).tx i ≤ Spec.shareCount evs * 2 ^ Spec.mergeCount evs := by
  have := bounded_run hS hE m evs 0 (.start cfg ps) (netInv_start S cfg ps E) (fun j i => le_of_eq rfl)
    (fun tx h => by cases h) (by rwa [zero_add])
  rwa [zero_add] at this

/-- `q` rounds in which nodes 0 and 1 post their transcripts in turn and receive each other's. -/
def Spec.rounds (ρ : Rng r) (q : ℕ) : List (Spec.Ev r) :=
  (List.range q).flatMap fun k => [.post 0, .merge 1 ρ (2 * k), .post 1, .merge 0 ρ (2 * k + 1)]

theorem rounds_succ (ρ : Rng r) (q : ℕ) :
    Spec.rounds ρ (q + 1) = Spec.rounds ρ q ++ [.post 0, .merge 1 ρ (2 * q), .post 1, .merge 0 ρ (2 * q + 1)] := by
  simp [Spec.rounds, List.range_succ]

theorem fib_le_max (k : ℕ) (hk : k ≤ 93) : Nat.fib k < 2 ^ 64 := by
  refine lt_of_le_of_lt (Nat.fib_mono hk) ?_
  norm_num [Nat.fib]

theorem step_post (S : Suite r G1 G2 K) (m : Mode) (D : List (PVSSShare r G1 G2)) (N : Spec.Net r G1 G2) (i : ℕ) :
    N.step S m D (.post i) = ⟨N.node, N.posts ++ [(N.node i).tx]⟩ := rfl

/-- One exchange: node `i` posts, node `j` receives. -/
theorem exchange {S : Suite r G1 G2 K} (hS : PairLaws S) {cfg : Config G1 G2} {ps : BMap (Participant G1)}
    {E : List (PVSSShare r G1 G2 × (ZMod r)[X])} (hE : Spec.Setting S cfg ps E) (m : Mode) {N : Spec.Net r G1 G2}
    (hN : NetInv S cfg ps E N) (i j : ℕ) (ρ : Rng r) (k : ℕ) (hk : k = N.posts.length)
    (hfit : ∀ x, Spec.weightOf (N.node j).tx x + Spec.weightOf (N.node i).tx x < 2 ^ 64) :
    N.AllOk S m (E.map (·.1)) [.post i, .merge j ρ k] ∧
    NetInv S cfg ps E (N.run S m (E.map (·.1)) [.post i, .merge j ρ k]) ∧
    (N.run S m (E.map (·.1)) [.post i, .merge j ρ k]).posts.length = N.posts.length + 1 ∧
    (∀ x, Spec.weightOf ((N.run S m (E.map (·.1)) [.post i, .merge j ρ k]).node j).tx x =
      Spec.weightOf (N.node j).tx x + Spec.weightOf (N.node i).tx x) ∧
    ∀ j', j' ≠ j → (N.run S m (E.map (·.1)) [.post i, .merge j ρ k]).node j' = N.node j' := by
  subst hk
  obtain ⟨-, h1, h2, -⟩ := (net_step hS hE hN m (.post i)).1 (fun j op h => by cases h)
  have hcall : (N.step S m (E.map (·.1)) (.post i)).call (E.map (·.1)) (.merge j ρ N.posts.length) =
      some (j, .agg ρ (N.node i).tx) := by
    rw [step_post]
    simp [Spec.Net.call]
  obtain ⟨-, h3, h4, h5⟩ := (net_step hS hE h2 m (.merge j ρ N.posts.length)).1 (fun j' op h x => by
    rw [hcall] at h
    obtain ⟨rfl, rfl⟩ := Prod.mk.inj (Option.some.inj h)
    exact hfit x)
  refine ⟨⟨h1, h3, trivial⟩, h4, ?_, h5 j _ hcall, fun j' hj => ?_⟩
  · show (N.posts ++ [(N.node i).tx]).length = _
    simp
  · have hM : (N.step S m (E.map (·.1)) (.post i)).node j' = N.node j' := rfl
    rw [← hM]
    show ((N.step S m (E.map (·.1)) (.post i)).step S m (E.map (·.1)) (.merge j ρ N.posts.length)).node j' = _
    generalize N.step S m (E.map (·.1)) (.post i) = M at hcall
    simp only [Spec.Net.step, hcall]
    rw [Function.update_of_ne hj]

theorem run_append (S : Suite r G1 G2 K) (m : Mode) (D : List (PVSSShare r G1 G2)) (N : Spec.Net r G1 G2)
    (evs evs' : List (Spec.Ev r)) : N.run S m D (evs ++ evs') = (N.run S m D evs).run S m D evs' :=
  List.foldl_append

/-- The rounds succeed while the Fibonacci numbers fit in 64 bits. -/
theorem rounds_ok {S : Suite r G1 G2 K} (hS : PairLaws S) {cfg : Config G1 G2} {ps : BMap (Participant G1)}
    {E : List (PVSSShare r G1 G2 × (ZMod r)[X])} (hE : Spec.Setting S cfg ps E) (m : Mode) (e : PVSSShare r G1 G2 × (ZMod r)[X])
    (he : E[0]? = some e) (ρ : Rng r) (q : ℕ) (hq : q ≤ 46) :
    let D := E.map (·.1)
    let N := (Spec.Net.start cfg ps).run S m D (.share 0 ρ 0 :: Spec.rounds ρ q)
    (Spec.Net.start cfg ps).AllOk S m D (.share 0 ρ 0 :: Spec.rounds ρ q) ∧ NetInv S cfg ps E N ∧ N.posts.length = 2 * q ∧
    (∀ i, Spec.weightOf (N.node 0).tx i = if i = e.1.participantId then Nat.fib (2 * q + 1) else 0) ∧
    (∀ i, Spec.weightOf (N.node 1).tx i = if i = e.1.participantId then Nat.fib (2 * q) else 0) := by
  intro D
  induction q with
  | zero =>
    have hcall : (Spec.Net.start cfg ps).call D (.share 0 ρ 0) = some (0, .share ρ e.1) := by
      simp [Spec.Net.call, D, he]
    have h00 : ∀ j i, Spec.weightOf ((Spec.Net.start cfg ps : Spec.Net r G1 G2).node j).tx i = 0 := fun _ _ => rfl
    obtain ⟨-, h1, h2, h3⟩ := (net_step hS hE (netInv_start S cfg ps E) m (.share 0 ρ 0)).1 (fun j op h x => by
      rw [hcall] at h
      obtain ⟨rfl, rfl⟩ := Prod.mk.inj (Option.some.inj h)
      rw [h00]
      simp only [Spec.opWeight]
      split <;> norm_num)
    refine ⟨⟨h1, trivial⟩, h2, rfl, fun i => ?_, fun i => ?_⟩
    · refine (h3 0 _ hcall i).trans ?_
      rw [h00, zero_add]
      rfl
    · show Spec.weightOf (((Spec.Net.start cfg ps).step S m D (.share 0 ρ 0)).node 1).tx i = _
      simp only [Spec.Net.step, hcall]
      rw [Function.update_of_ne (by decide)]
      simp only [mul_zero, Nat.fib_zero, ite_self]
      exact h00 1 i
  | succ q ih =>
    obtain ⟨k1, k2, k3, k4, k5⟩ := ih (by omega)
    have hsplit : Spec.Ev.share 0 ρ 0 :: Spec.rounds ρ (q + 1) =
        (.share 0 ρ 0 :: Spec.rounds ρ q) ++ ([.post 0, .merge 1 ρ (2 * q)] ++ [.post 1, .merge 0 ρ (2 * q + 1)]) := by
      rw [rounds_succ]; rfl
    rw [hsplit, allOk_append, run_append, allOk_append, run_append]
    generalize hM : (Spec.Net.start cfg ps).run S m D (.share 0 ρ 0 :: Spec.rounds ρ q) = M at k1 k2 k3 k4 k5 ⊢
    obtain ⟨a1, a2, a3, a4, a5⟩ := exchange hS hE m k2 0 1 ρ (2 * q) k3.symm (fun x => by
      rw [k4, k5]
      split
      · rw [← Nat.fib_add_two]; exact fib_le_max _ (by omega)
      · norm_num)
    generalize hM' : M.run S m (E.map (·.1)) [.post 0, .merge 1 ρ (2 * q)] = M' at a2 a3 a4 a5
    have w1 : ∀ x, Spec.weightOf (M'.node 1).tx x = if x = e.1.participantId then Nat.fib (2 * q + 2) else 0 := fun x => by
      rw [a4, k4, k5, Nat.fib_add_two]
      split <;> rfl
    have w0 : ∀ x, Spec.weightOf (M'.node 0).tx x = if x = e.1.participantId then Nat.fib (2 * q + 1) else 0 := fun x => by
      rw [a5 0 (by decide), k4]
    obtain ⟨b1, b2, b3, b4, b5⟩ := exchange hS hE m a2 1 0 ρ (2 * q + 1) (by rw [a3, k3]) (fun x => by
      rw [w0, w1]
      split
      · rw [← Nat.fib_add_two]; exact fib_le_max _ (by omega)
      · norm_num)
    rw [show D = E.map (·.1) from rfl]
    simp only
    refine ⟨⟨k1, a1, b1⟩, b2, by rw [b3, a3, k3]; ring, fun x => ?_, fun x => ?_⟩
    · rw [b4, w0, w1]
      split
      · exact (Nat.fib_add_two (n := 2 * q + 1)).symm
      · rfl
    · rw [b5 1 (by decide), w1]
      rfl

theorem rounds_stuck {S : Suite r G1 G2 K} (hS : PairLaws S) {cfg : Config G1 G2} {ps : BMap (Participant G1)}
    {E : List (PVSSShare r G1 G2 × (ZMod r)[X])} (hE : Spec.Setting S cfg ps E) (e : PVSSShare r G1 G2 × (ZMod r)[X])
    (he : E[0]? = some e) (ρ ρ' : Rng r) (q : ℕ) (hq : q ≤ 46) (hov : 2 ^ 64 ≤ Nat.fib (2 * q) + Nat.fib (2 * q + 1)) :
    let D := E.map (·.1)
    let evs := .share 0 ρ 0 :: Spec.rounds ρ q
    let N := (Spec.Net.start cfg ps).run S .checked D evs
    (Spec.Net.start cfg ps).AllOk S .checked D evs ∧
    ∀ i j, (i = 0 ∧ j = 1 ∨ i = 1 ∧ j = 0) →
      (N.node j).receiveAggregatedShare S .checked ρ' (N.node i).tx = (.panic, N.node j) := by
  intro D evs N
  obtain ⟨h1, h2, -, h4, h5⟩ := rounds_ok hS hE .checked e he ρ q hq
  refine ⟨h1, fun i j hij => ?_⟩
  have hN : NetInv S cfg ps E N := h2
  refine (honest_step S hS .checked (N.node j) E (by rw [hN.config, hN.parts]; exact hE.published)
      (by rw [hN.config, hN.parts]; exact hE.registered) (by rw [hN.config]; exact hE.n_le)
      (by rw [hN.config]; exact hE.cap) (by rw [hN.config]; exact hE.deg) (by rw [hN.config, hN.parts]; exact hN.node j)
      (.agg ρ' (N.node i).tx) (by rw [hN.config, hN.parts]; exact hN.node i)).2 fun h => ?_
  have h0 := h e.1.participantId
  have e0 : Spec.weightOf (N.node 0).tx e.1.participantId = Nat.fib (2 * q + 1) :=
    (h4 e.1.participantId).trans (if_pos rfl)
  have e1 : Spec.weightOf (N.node 1).tx e.1.participantId = Nat.fib (2 * q) :=
    (h5 e.1.participantId).trans (if_pos rfl)
  simp only [Spec.opWeight] at h0
  rcases hij with ⟨rfl, rfl⟩ | ⟨rfl, rfl⟩ <;> rw [e0, e1] at h0 <;> omega

/-- **C84** fails by itself: two honest nodes that exchange transcripts, each time adding the other's, reach Fibonacci weights.
After one delivered share and 46 rounds, all successful, no further exchange is possible: with overflow checks both nodes panic
on the other's transcript, with every random stream, and nothing changes. -/
theorem C84_panic (S : Suite r G1 G2 K) (hS : PairLaws S) (cfg : Config G1 G2) (ps : BMap (Participant G1))
    (E : List (PVSSShare r G1 G2 × (ZMod r)[X])) (hE : Spec.Setting S cfg ps E) (hne : E ≠ []) (ρ ρ' : Rng r) :
    let D := E.map (·.1)
    let evs := .share 0 ρ 0 :: Spec.rounds ρ 46
    let N := (Spec.Net.start cfg ps).run S .checked D evs
    (Spec.Net.start cfg ps).AllOk S .checked D evs ∧
    ∀ i j, (i = 0 ∧ j = 1 ∨ i = 1 ∧ j = 0) →
      (N.node j).receiveAggregatedShare S .checked ρ' (N.node i).tx = (.panic, N.node j) := by
  obtain ⟨e, he⟩ : ∃ e, E[0]? = some e := by
    cases E with
    | nil => exact absurd rfl hne
    | cons e E => exact ⟨e, rfl⟩
  exact rounds_stuck hS hE e he ρ ρ' 46 le_rfl (by norm_num [Nat.fib])

theorem txInv_honest {S : Suite r G1 G2 K} (hS : PairLaws S) {cfg : Config G1 G2} {ps : BMap (Participant G1)}
    (hn : cfg.numParticipants ≤ r) (hcap : cfg.numParticipants < 2 ^ 58) (ht : cfg.degree + 2 ≤ cfg.numParticipants)
    {tx : AggShare r G1 G2} {l : List (PVSSShare r G1 G2 × (ZMod r)[X])} (h : Spec.HonestTx S cfg ps tx l) :
    Spec.TxInv S cfg ps tx := by
  induction h with
  | empty => exact txInv_empty S cfg ps
  | @share sh p hg =>
    obtain ⟨rng', hv⟩ := shareVerify_good S hS .checked (Aggregator.new cfg ps) (fun _ => 0) sh p hg hn hcap (Or.inl ht)
    exact txInv_share hS hv hn (lt_trans hcap (by norm_num))
  | merge _ _ hc ha hb => exact txInv_merge ha hb hc

theorem rounds_wrap {S : Suite r G1 G2 K} (hS : PairLaws S) {cfg : Config G1 G2} {ps : BMap (Participant G1)}
    {E : List (PVSSShare r G1 G2 × (ZMod r)[X])} (hE : Spec.Setting S cfg ps E) (e : PVSSShare r G1 G2 × (ZMod r)[X])
    (he : E[0]? = some e) (hp : e.2.eval 0 • cfg.srs.g2 ≠ 0) (hr : ((2 ^ 64 : ℕ) : ZMod r) ≠ 0) (m : Mode) (hm : m ≠ .checked)
    (ρ ρ' : Rng r) (q : ℕ) (hq : q ≤ 46) (hov : 2 ^ 64 ≤ Nat.fib (2 * q) + Nat.fib (2 * q + 1)) :
    let D := E.map (·.1)
    let evs := .share 0 ρ 0 :: Spec.rounds ρ q
    let N := (Spec.Net.start cfg ps).run S m D evs
    (Spec.Net.start cfg ps).AllOk S m D evs ∧
    ∃ a', (N.node 1).receiveAggregatedShare S m ρ' (N.node 0).tx = (.ok (), a') ∧
      ∀ (peer : Aggregator r G1 G2) m' rng rng', peer.config = cfg → peer.participants = ps →
        peer.aggregationVerify S m' rng a'.tx ≠ .ok rng' := by
  intro D evs N
  obtain ⟨h1, h2, -, h4, h5⟩ := rounds_ok hS hE m e he ρ q hq
  refine ⟨h1, ?_⟩
  have hN : NetInv S cfg ps E N := h2
  obtain ⟨l0, hl0, hE0⟩ := hN.node 0
  obtain ⟨l1, hl1, hE1⟩ := hN.node 1
  have hdeg := hE.deg
  obtain ⟨c, hc⟩ := honest_merge_ok (by omega) hE.published hl1 hl0 hE1 hE0 m
    fun i x y _ _ => ⟨_, addWeight_unchecked hm x.2 y.2⟩
  obtain ⟨rng1, hv⟩ := C32 S hS m (N.node 1) (N.node 0).tx l0 (by rw [hN.config, hN.parts]; exact hl0)
    (by rw [hN.config, hN.parts]; exact hE.registered) (by rw [hN.config]; exact hE.n_le) (by rw [hN.config]; exact hE.cap)
    (by rw [hN.config]; exact Or.inl hE.deg) ρ'
  refine ⟨{ N.node 1 with tx := c }, (receiveAgg_ok_iff _ _ _ _ _ _).2 ⟨rng1, c, hv, hc, rfl⟩, ?_⟩
  intro peer m' rng rng' hcfg hps
  have w0 : ∀ i, Spec.weightOf (N.node 0).tx i = if i = e.1.participantId then Nat.fib (2 * q + 1) else 0 := h4
  have w1 : ∀ i, Spec.weightOf (N.node 1).tx i = if i = e.1.participantId then Nat.fib (2 * q) else 0 := h5
  have hpos : 2 ≤ 2 * q := by
    by_contra hlt
    have : q = 0 := by omega
    subst this
    simp at hov
  have g0 : ∃ v, (N.node 0).tx.contributions.get e.1.participantId = some v := by
    cases hg : (N.node 0).tx.contributions.get e.1.participantId with
    | some v => exact ⟨v, rfl⟩
    | none =>
      have h0 := w0 e.1.participantId
      rw [if_pos rfl, Spec.weightOf, hg] at h0
      have := Nat.fib_pos.2 (show 0 < 2 * q + 1 by omega)
      simp only [Option.elim] at h0
      omega
  have g1 : ∃ v, (N.node 1).tx.contributions.get e.1.participantId = some v := by
    cases hg : (N.node 1).tx.contributions.get e.1.participantId with
    | some v => exact ⟨v, rfl⟩
    | none =>
      have h0 := w1 e.1.participantId
      rw [if_pos rfl, Spec.weightOf, hg] at h0
      have := Nat.fib_pos.2 (show 0 < 2 * q by omega)
      simp only [Option.elim] at h0
      omega
  obtain ⟨⟨x, w⟩, g0⟩ := g0
  obtain ⟨⟨y, w'⟩, g1⟩ := g1
  have inv0 := txInv_honest hS hE.n_le hE.cap hE.deg hl0
  have inv1 := txInv_honest hS hE.n_le hE.cap hE.deg hl1
  have hsum : w'.toNat = Nat.fib (2 * q) ∧ w.toNat = Nat.fib (2 * q + 1) := by
    have h0 := w0 e.1.participantId
    have h1 := w1 e.1.participantId
    rw [if_pos rfl, Spec.weightOf, g0] at h0
    rw [if_pos rfl, Spec.weightOf, g1] at h1
    exact ⟨h1, h0⟩
  subst hcfg hps
  refine C34_broken S hS m peer hE.n_le (lt_trans hE.cap (by norm_num)) _ _ c inv1 inv0 hc e.1.participantId y x w' w g1 g0
    (by rw [hsum.1, hsum.2]; exact hov) ?_ hr ?_ m' rng rng'
  · intro j hj x1 v1 y1 v1' hx hy
    have h0 := w0 j
    have h1 := w1 j
    rw [if_neg hj, Spec.weightOf, hy] at h0
    rw [if_neg hj, Spec.weightOf, hx] at h1
    simp only [Option.elim] at h0 h1
    omega
  · obtain ⟨⟨d, hd, hid, rfl⟩, -⟩ := (honest_contribs hl1).1 _ _ _ g1
    have : d = e := published_unique hE.published (hE1 hd) (List.mem_of_getElem? he) hid
    subst this
    rw [(honest_good hl1 d hd).gs]
    exact hp

/-- **C84**, in builds without overflow checks: the exchange after the 46 rounds is silently accepted and leaves a transcript
that every peer refuses, with every random stream and in every build mode. -/
theorem C84_wrap (S : Suite r G1 G2 K) (hS : PairLaws S) (cfg : Config G1 G2) (ps : BMap (Participant G1))
    (E : List (PVSSShare r G1 G2 × (ZMod r)[X])) (hE : Spec.Setting S cfg ps E) (e : PVSSShare r G1 G2 × (ZMod r)[X])
    (he : E[0]? = some e) (hp : e.2.eval 0 • cfg.srs.g2 ≠ 0) (hr : ((2 ^ 64 : ℕ) : ZMod r) ≠ 0) (m : Mode) (hm : m ≠ .checked)
    (ρ ρ' : Rng r) :
    let D := E.map (·.1)
    let evs := .share 0 ρ 0 :: Spec.rounds ρ 46
    let N := (Spec.Net.start cfg ps).run S m D evs
    (Spec.Net.start cfg ps).AllOk S m D evs ∧
    ∃ a', (N.node 1).receiveAggregatedShare S m ρ' (N.node 0).tx = (.ok (), a') ∧
      ∀ (peer : Aggregator r G1 G2) m' rng rng', peer.config = cfg → peer.participants = ps →
        peer.aggregationVerify S m' rng a'.tx ≠ .ok rng' :=
  rounds_wrap hS hE e he hp hr m hm ρ ρ' 46 le_rfl (by norm_num [Nat.fib])

namespace Toy

/-- Non-vacuity: the setting of the concrete case with one published share. -/
theorem setting : ∃ sh p, sh.core = core52 ∧ Spec.Setting (suite 13) cfg parties [(sh, p)] := by
  obtain ⟨sh, hcore, hid, ⟨p, hg⟩, -⟩ := accepted52
  refine ⟨sh, p, hcore, registered, by decide, by decide, by decide, ⟨fun e he => ?_, by simp⟩⟩
  rw [List.mem_singleton] at he
  rw [he]
  exact hg

end Toy

theorem rounds_not_allOk {S : Suite r G1 G2 K} (hS : PairLaws S) {cfg : Config G1 G2} {ps : BMap (Participant G1)}
    {E : List (PVSSShare r G1 G2 × (ZMod r)[X])} (hE : Spec.Setting S cfg ps E) (e : PVSSShare r G1 G2 × (ZMod r)[X])
    (he : E[0]? = some e) (ρ : Rng r) (q : ℕ) (hq : q ≤ 46) (hov : 2 ^ 64 ≤ Nat.fib (2 * q) + Nat.fib (2 * q + 1)) :
    ¬ (Spec.Net.start cfg ps).AllOk S .checked (E.map (·.1))
      ((.share 0 ρ 0 :: Spec.rounds ρ q) ++ [.post 0, .merge 1 ρ (2 * q)]) := by
  intro h
  obtain ⟨-, -, hlen, -, -⟩ := rounds_ok hS hE .checked e he ρ q hq
  obtain ⟨-, h2⟩ := rounds_stuck hS hE e he ρ ρ q hq hov
  obtain ⟨-, -, h3, -⟩ := allOk_append.1 h
  have h4 := h2 0 1 (Or.inl ⟨rfl, rfl⟩)
  generalize (Spec.Net.start cfg ps).run S .checked (E.map (·.1)) (.share 0 ρ 0 :: Spec.rounds ρ q) = N at hlen h3 h4
  have hcall : (N.step S .checked (E.map (·.1)) (.post 0)).call (E.map (·.1)) (.merge 1 ρ (2 * q)) =
      some (1, .agg ρ (N.node 0).tx) := by
    rw [step_post, ← hlen]
    simp [Spec.Net.call]
  simp only [Spec.Net.outcome, hcall] at h3
  change ((N.node 1).receiveAggregatedShare S .checked ρ (N.node 0).tx).1 = .ok () at h3
  rw [h4] at h3
  cases h3

/-- **C84** is false, for every configuration with at least one honest dealer. -/
theorem C84_false (S : Suite r G1 G2 K) (hS : PairLaws S) (cfg : Config G1 G2) (ps : BMap (Participant G1))
    (E : List (PVSSShare r G1 G2 × (ZMod r)[X])) (hE : Spec.Setting S cfg ps E) (hne : E ≠ []) :
    ¬ C84_claim S .checked cfg ps E := by
  intro hc
  obtain ⟨e, he⟩ : ∃ e, E[0]? = some e := by
    cases E with
    | nil => exact absurd rfl hne
    | cons e E => exact ⟨e, rfl⟩
  exact rounds_not_allOk hS hE e he (fun _ => 0) 46 le_rfl (by norm_num [Nat.fib]) (hc _)

/-- Non-vacuity of C83 and C84: the concrete case is a setting; an execution with a repeated share, a stale and a repeated
transcript, in which the weights become 2 and 3. -/
example : ∃ E, E ≠ [] ∧ Spec.Setting (Toy.suite 13) Toy.cfg Toy.parties E ∧
    ¬ C84_claim (Toy.suite 13) .checked Toy.cfg Toy.parties E ∧
    ∀ m, Spec.Net.AllOk (Toy.suite 13) m (E.map (·.1)) (.start Toy.cfg Toy.parties)
      [.share 0 (fun _ => 1) 0, .post 0, .share 0 (fun _ => 2) 0, .merge 3 (fun _ => 0) 0, .post 0, .merge 3 (fun _ => 5) 1] := by
  obtain ⟨sh, p, -, hE⟩ := Toy.setting
  refine ⟨_, by simp, hE, C84_false _ (Toy.pairLaws 13) _ _ _ hE (by simp), fun m => ?_⟩
  exact (C84_partial (Toy.suite 13) (Toy.pairLaws 13) m Toy.cfg Toy.parties _ hE _
    (by simp [Spec.shareCount, Spec.mergeCount])).1

/-- Non-vacuity of C84_wrap: in the concrete case `2^64 ≠ 0` and the dealt value is not 0. -/
example : ∃ sh p, Spec.Setting (Toy.suite 13) Toy.cfg Toy.parties [(sh, p)] ∧ p.eval 0 • Toy.cfg.srs.g2 ≠ 0 ∧
    ((2 ^ 64 : ℕ) : ZMod 13) ≠ 0 := by
  obtain ⟨sh, p, hcore, hE⟩ := Toy.setting
  refine ⟨sh, p, hE, ?_, by decide⟩
  obtain ⟨pk, -, hs⟩ := (hE.published.good (sh, p) (by simp)).keys
  obtain ⟨a, b, hab⟩ := exists_eq_X_add_C_of_natDegree_le_one (p := p) hs.degree
  have h0 : (7 : ZMod 13) = p.eval (Spec.point 13 0) • Toy.cfg.srs.g2 := by
    rw [← hs.comm 0 (by rw [hs.comms_length]; decide)]
    simp only [hcore]
    rfl
  have h1 : (9 : ZMod 13) = p.eval (Spec.point 13 1) • Toy.cfg.srs.g2 := by
    rw [← hs.comm 1 (by rw [hs.comms_length]; decide)]
    simp only [hcore]
    rfl
  rw [hab] at h0 h1 ⊢
  simp only [eval_add, eval_mul, eval_C, eval_X] at h0 h1 ⊢
  clear hab hs hE hcore
  revert a b
  decide

end Verif
