import Verif.Props.Odds

/-!
# A network of aggregators under attack: C113

Any number of honest aggregators with one configuration; everything that reaches them is chosen by an adversary who controls the
network and all dealers, and has seen all random scalars drawn so far by all of them (so it knows all their transcripts, and may pass
these on, or not).
-/

open Finset Polynomial
open scoped ENNReal

namespace Verif

set_option linter.unusedSectionVars false

open Sampler

section Count
variable {r : ℕ} [Fact r.Prime] {G1 G2 K : Type}
  [AddCommGroup G1] [DecidableEq G1] [AddCommGroup G2] [DecidableEq G2] [CommMonoid K] [DecidableEq K]
  [Module (ZMod r) G1] [Module (ZMod r) G2]

/-- Calls to the aggregators `N`, one after the other. -/
noncomputable def Spec.deliver (S : Suite r G1 G2 K) (m : Mode) (N : ℕ → Aggregator r G1 G2) :
    List (ℕ × Op r G1 G2) → ℕ → Aggregator r G1 G2
  | [] => N
  | (j, op) :: calls => Spec.deliver S m (Function.update N j ((N j).step S m op).2) calls

/-- The calls made by an adversary that in step `i` names an aggregator and a message, knowing the scalars of all earlier steps. -/
def Spec.siege {k L : ℕ} (adv : List (Fin L → ZMod r) → ℕ × (PVSSShare r G1 G2 ⊕ AggShare r G1 G2)) (tail : ℕ → ℕ → ZMod r)
    (c : Fin k → Fin L → ZMod r) : List (ℕ × Op r G1 G2) :=
  List.ofFn fun i : Fin k =>
    match adv ((List.ofFn c).take i) with
    | (j, .inl sh) => (j, .share (Spec.withPrefix (c i) (tail i)) sh)
    | (j, .inr ag) => (j, .agg (Spec.withPrefix (c i) (tail i)) ag)

theorem deliver_eq (S : Suite r G1 G2 K) (m : Mode) (calls : List (ℕ × Op r G1 G2)) :
    ∀ (N : ℕ → Aggregator r G1 G2) (j : ℕ),
      Spec.deliver S m N calls j = (N j).run S m ((calls.filter fun e => e.1 = j).map Prod.snd) := by
  induction calls with
  | nil => intro N j; rfl
  | cons e calls ih =>
    obtain ⟨i, op⟩ := e
    intro N j
    rw [Spec.deliver, ih]
    by_cases h : i = j
    · subst h
      simp [Aggregator.run]
    · simp [h, Function.update_of_ne (Ne.symm h)]

theorem siege_ops {k L : ℕ} (adv : List (Fin L → ZMod r) → ℕ × (PVSSShare r G1 G2 ⊕ AggShare r G1 G2)) (tail : ℕ → ℕ → ZMod r)
    (c : Fin k → Fin L → ZMod r) : (Spec.siege adv tail c).map Prod.snd = Spec.attack (fun l => (adv l).2) tail c := by
  unfold Spec.siege Spec.attack
  rw [List.map_ofFn]
  congr 1
  funext i
  simp only [Function.comp_apply]
  rcases h : adv ((List.ofFn c).take i) with ⟨j, sh | ag⟩ <;> rfl

open Classical in
/-- **C113**. Whatever the adversary does in `k` calls to any aggregators, the commitments held by any of them at any time fail to be a
codeword for at most a `k/r` fraction of the draws. -/
theorem C113 (S : Suite r G1 G2 K) (hS : PairLaws S) (m : Mode) (cfg : Config G1 G2) (ps : ℕ → BMap (Participant G1))
    (ht : cfg.degree + 2 ≤ cfg.numParticipants) (hn : cfg.numParticipants ≤ r) (hcap : cfg.numParticipants < 2 ^ 58)
    (k L : ℕ) (hL : L = cfg.numParticipants - cfg.degree - 1)
    (adv : List (Fin L → ZMod r) → ℕ × (PVSSShare r G1 G2 ⊕ AggShare r G1 G2)) (tail : ℕ → ℕ → ZMod r) :
    (univ.filter fun c : Fin k → Fin L → ZMod r => ∃ i j, ¬ Spec.Codeword r cfg.degree
        (Spec.deliver S m (fun j => Aggregator.new cfg (ps j)) ((Spec.siege adv tail c).take i) j).tx.core.comms).card * r
      ≤ k * Fintype.card (Fin k → Fin L → ZMod r) := by
  refine le_trans (Nat.mul_le_mul_right _ (card_le_card ?_))
    (card_fooled (G1 := G1) (G2 := G2) m _ _ ht hn hcap k L hL (fun l => (adv l).2) tail)
  intro c hc
  simp only [mem_filter, mem_univ, true_and] at hc ⊢
  by_contra hno
  push Not at hno
  obtain ⟨i, j, hc⟩ := hc
  rw [deliver_eq] at hc
  refine hc (run_codeword S hS m _ (Aggregator.new cfg (ps j)) (codeword_new cfg (ps j)) fun op hop => hno op ?_)
  rw [← siege_ops]
  obtain ⟨e, he, rfl⟩ := List.mem_map.1 hop
  exact List.mem_map.2 ⟨e, List.mem_of_mem_take (List.mem_filter.1 he).1, rfl⟩

/-- Aggregators whose lists of contributions have the same weighted sum lead to the same secret, whichever `t + 1` parties hand in values
that pass the public check. -/
def Spec.Agreed (S : Suite r G1 G2 K) (cfg : Config G1 G2) (N : ℕ → Aggregator r G1 G2) : Prop :=
  ∀ (m m' : Mode) (j j' : ℕ) (ids ids' : List ℕ) (ds ds' : List G1),
    Spec.weightedGs (r := r) (N j).tx.contributions = Spec.weightedGs (N j').tx.contributions →
    Spec.Selection cfg.numParticipants cfg.degree ids → Spec.Selection cfg.numParticipants cfg.degree ids' →
    Spec.Checked S cfg.srs.g1 cfg.srs.g2 (N j).tx.core.comms ids ds →
    Spec.Checked S cfg.srs.g1 cfg.srs.g2 (N j').tx.core.comms ids' ds' →
    ∃ s, lagrangeG1 m ds (ids.map (Spec.point r)) cfg.degree = .ok s ∧
      lagrangeG1 m' ds' (ids'.map (Spec.point r)) cfg.degree = .ok s

open Classical in
/-- **C113** (agreement). For all other draws the following holds at all times: if the contributions two aggregators list have the same
weighted sum, then values that pass the public check against the transcript of one, from any `t + 1` parties, and values that pass it
against the transcript of the other, from any `t + 1` parties, reconstruct the same secret. -/
theorem C113_agreement (S : Suite r G1 G2 K) (hS : PairLaws S) (cfg : Config G1 G2) (ps : ℕ → BMap (Participant G1))
    (hids : ∀ j i q, (ps j).get i = some q → i < cfg.numParticipants) (hg2 : cfg.srs.g2 ≠ 0)
    (ht : cfg.degree + 2 ≤ cfg.numParticipants) (hn : cfg.numParticipants ≤ r) (hcap : cfg.numParticipants < 2 ^ 58)
    (k L : ℕ) (hL : L = cfg.numParticipants - cfg.degree - 1)
    (adv : List (Fin L → ZMod r) → ℕ × (PVSSShare r G1 G2 ⊕ AggShare r G1 G2)) (tail : ℕ → ℕ → ZMod r) :
    (univ.filter fun c : Fin k → Fin L → ZMod r => ∃ i, ¬ Spec.Agreed S cfg
        (Spec.deliver S .checked (fun j => Aggregator.new cfg (ps j)) ((Spec.siege adv tail c).take i))).card * r
      ≤ k * Fintype.card (Fin k → Fin L → ZMod r) := by
  refine le_trans (Nat.mul_le_mul_right _ (card_le_card ?_)) (C113 S hS .checked cfg ps ht hn hcap k L hL adv tail)
  intro c hc
  simp only [mem_filter, mem_univ, true_and] at hc ⊢
  obtain ⟨i, hc⟩ := hc
  refine ⟨i, ?_⟩
  by_contra hcw
  push Not at hcw
  refine hc fun m m' j j' ids ids' ds ds' hw hsel hsel' hd hd' => ?_
  have key : ∀ (m : Mode) (j : ℕ) (ids : List ℕ) (ds : List G1), Spec.Selection cfg.numParticipants cfg.degree ids →
      Spec.Checked S cfg.srs.g1 cfg.srs.g2 (Spec.deliver S .checked (fun j => Aggregator.new cfg (ps j))
        ((Spec.siege adv tail c).take i) j).tx.core.comms ids ds →
      ∃ s, lagrangeG1 m ds (ids.map (Spec.point r)) cfg.degree = .ok s ∧
        (∀ s', S.pair s' cfg.srs.g2 = S.pair cfg.srs.g1 (Spec.weightedGs (Spec.deliver S .checked (fun j => Aggregator.new cfg (ps j))
        ((Spec.siege adv tail c).take i) j).tx.contributions) → s' = s) ∧
        S.pair s cfg.srs.g2 = S.pair cfg.srs.g1 (Spec.weightedGs (Spec.deliver S .checked (fun j => Aggregator.new cfg (ps j))
        ((Spec.siege adv tail c).take i) j).tx.contributions) := by
    intro m j ids ds hsel hd
    have hcj := hcw j
    rw [deliver_eq] at hcj hd ⊢
    have hinv := C31 S hS cfg (ps j) (hids j) hn (by omega)
      ((((Spec.siege adv tail c).take i).filter fun e => e.1 = j).map Prod.snd)
    have hl := hinv.comms_length
    obtain ⟨s, h1, -, h2, h3⟩ := C79 m S hS cfg.srs.g1 cfg.srs.g2 cfg.degree _ hcj (by omega) _ hinv.interp ids ds
      (by rw [hl]; exact hsel) hd
    exact ⟨s, h1, h3 hg2, h2⟩
  obtain ⟨s, h1, -, h2⟩ := key m j ids ds hsel hd
  obtain ⟨s', h1', h3', -⟩ := key m' j' ids' ds' hsel' hd'
  refine ⟨s', ?_, h1'⟩
  rw [h1, h3' s (by rw [h2, hw])]

/-- Non-vacuity of C113: the bound is not zero. Aggregator 5 is fooled by the draw `0, 0`. -/
example : ∃ adv : List (Fin 2 → ZMod 13) → ℕ × (PVSSShare 13 (ZMod 13) (ZMod 13) ⊕ AggShare 13 (ZMod 13) (ZMod 13)),
    ¬ Spec.Codeword 13 1 (Spec.deliver (Toy.suite 13) .checked (fun _ => Aggregator.new Toy.cfg Toy.parties)
      ((Spec.siege (k := 1) adv (fun _ _ => 0) fun _ _ => 0).take 1) 5).tx.core.comms := by
  obtain ⟨sh, h⟩ := Toy.fooled
  refine ⟨fun _ => (5, .inl sh), ?_⟩
  rw [deliver_eq]
  exact h

/-- Non-vacuity of C113_agreement: aggregator 4 receives the share of party 2 with one replaced encryption, aggregator 9 the genuine
one. Their transcripts differ, but the hypotheses of the agreement hold for the parties 3, 0 and 0, 1. -/
example : ∃ sh sh' : PVSSShare 13 (ZMod 13) (ZMod 13),
    let N := Spec.deliver (Toy.suite 13) .checked (fun _ => Aggregator.new Toy.cfg Toy.parties)
      [(4, .share Toy.rng52 sh), (9, .share Toy.rng52 sh')]
    (N 4).tx.core ≠ (N 9).tx.core ∧
    Spec.weightedGs (r := 13) (N 4).tx.contributions = 5 ∧ Spec.weightedGs (r := 13) (N 9).tx.contributions = 5 ∧
    Spec.Checked (Toy.suite 13) (1 : ZMod 13) (1 : ZMod 13) (N 4).tx.core.comms [3, 0] [0, 7] ∧
    Spec.Checked (Toy.suite 13) (1 : ZMod 13) (1 : ZMod 13) (N 9).tx.core.comms [0, 1] [7, 9] := by
  have key : ∀ (sh : PVSSShare 13 (ZMod 13) (ZMod 13)) (a' : Aggregator 13 (ZMod 13) (ZMod 13)) (encs : List (ZMod 13)),
      sh.core = ⟨encs, [7, 9, 11, 13]⟩ → encs.length = 4 →
      Toy.agg.receiveShare (Toy.suite 13) .checked Toy.rng52 sh = (.ok (), a') →
      a'.tx.core = ⟨encs, [7, 9, 11, 13]⟩ ∧ Spec.weightedGs (r := 13) a'.tx.contributions = 5 := by
    intro sh a' encs hcore hl hrec
    have hrun : (Aggregator.new Toy.cfg Toy.parties).run (Toy.suite 13) .checked [.share Toy.rng52 sh] = a' := by
      show (Toy.agg.receiveShare (Toy.suite 13) .checked Toy.rng52 sh).2 = a'
      rw [hrec]
    obtain ⟨rng', tx, -, hagg, ha'⟩ := (receiveShare_ok_iff _ _ _ _ _ _).1 hrec
    obtain ⟨-, -, -, -, hadd, -, -⟩ := (aggregate_iff _ _ _ _).1 hagg
    have htx : a'.tx.core = ⟨encs, [7, 9, 11, 13]⟩ := by
      rw [show (AggShare.ofShare Toy.agg.tx.degree Toy.agg.tx.numParticipants sh).core = sh.core from rfl, hcore] at hadd
      rw [ha']
      refine (Res.ok.inj (hadd.symm.trans ?_))
      obtain ⟨e0, e1, e2, e3, rfl⟩ := List.length_eq_four.1 hl
      show Res.ok _ = Res.ok _
      simp [Toy.agg, Aggregator.new, AggShare.empty, PVSSCore.empty, Toy.cfg, List.replicate]
    refine ⟨htx, ?_⟩
    have h := (C31 (Toy.suite 13) (Toy.pairLaws 13) Toy.cfg Toy.parties Toy.ids_lt (by decide) (by decide)
      [.share Toy.rng52 sh]).interp
    rw [hrun, htx] at h
    exact interpolatesTo_unique (by show 2 ≤ 4; decide) (by decide) h Toy.interp52
  obtain ⟨sh, a, hcore, hrec⟩ := Toy.forged Toy.rng52
  obtain ⟨sh', hcore', hid, -, h⟩ := Toy.accepted52
  obtain ⟨rng', h⟩ := h Toy.rng52
  obtain ⟨tx, h2⟩ := aggregatePvssShare_ok .checked Toy.agg.config Toy.agg.tx sh'
    ⟨rfl, rfl, rfl, rfl, fun x w hx => by cases hx⟩ (by decide) (by rw [hcore']; rfl) (by rw [hcore']; rfl)
  have hrec' : Toy.agg.receiveShare (Toy.suite 13) .checked Toy.rng52 sh' = (.ok (), { Toy.agg with tx := tx }) :=
    (receiveShare_ok_iff _ _ _ _ _ _).2 ⟨rng', tx, h, h2, rfl⟩
  obtain ⟨k1, k2⟩ := key sh a _ hcore rfl hrec
  obtain ⟨k3, k4⟩ := key sh' _ _ hcore' rfl hrec'
  refine ⟨sh, sh', ?_⟩
  intro N
  have h4 : N 4 = a := congrArg Prod.snd hrec
  have h9 : N 9 = { Toy.agg with tx := tx } := congrArg Prod.snd hrec'
  rw [h4, h9, k1, k3]
  refine ⟨by decide, k2, k4, ?_, ?_⟩
  · exact .cons ⟨13, 6, rfl, by unfold Spec.DecCheck; decide⟩ (.cons ⟨7, 1, rfl, by unfold Spec.DecCheck; decide⟩ .nil)
  · exact .cons ⟨7, 1, rfl, by unfold Spec.DecCheck; decide⟩ (.cons ⟨9, 1, rfl, by unfold Spec.DecCheck; decide⟩ .nil)

end Count

/-! ### With the real generator at BLS12-381 -/

variable {G1 G2 K : Type}
  [AddCommGroup G1] [DecidableEq G1] [AddCommGroup G2] [DecidableEq G2] [CommMonoid K] [DecidableEq K]
  [Module (ZMod blsR) G1] [Module (ZMod blsR) G2]

/-- As `Spec.siege`, the draws as lists. -/
def Spec.siegeList {r : ℕ} [Fact r.Prime] (adv : List (List (ZMod r)) → ℕ × (PVSSShare r G1 G2 ⊕ AggShare r G1 G2))
    (tail : ℕ → Rng r) (cs : List (List (ZMod r))) : List (ℕ × Op r G1 G2) :=
  cs.mapIdx fun i c => match adv (cs.take i) with
    | (j, .inl sh) => (j, .share (Spec.tape c (tail i)) sh)
    | (j, .inr ag) => (j, .agg (Spec.tape c (tail i)) ag)

theorem siegeList_ofFn {r k L : ℕ} [Fact r.Prime] (adv : List (List (ZMod r)) → ℕ × (PVSSShare r G1 G2 ⊕ AggShare r G1 G2))
    (tail : ℕ → Rng r) (c : Fin k → Fin L → ZMod r) :
    Spec.siegeList adv tail (List.ofFn fun i => List.ofFn (c i)) = Spec.siege (fun l => adv (l.map List.ofFn)) tail c := by
  unfold Spec.siegeList Spec.siege
  refine List.ext_getElem (by simp) fun i h1 h2 => ?_
  simp only [List.getElem_mapIdx, List.getElem_ofFn, tape_ofFn, List.map_take, List.map_ofFn, Function.comp_def]
  rcases adv (List.take i (List.ofFn fun i => List.ofFn (c i))) with ⟨j, sh | ag⟩ <;> rfl

/-- **C113** (BLS12-381). When the aggregators draw with `Scalar::rand`, the probability that the adversary ever gets commitments that are no
codeword into some transcript, or breaks the agreement, with `k` calls is at most `k / r`. -/
theorem C113_bls (S : Suite blsR G1 G2 K) (hS : PairLaws S) (cfg : Config G1 G2) (ps : ℕ → BMap (Participant G1))
    (hids : ∀ j i q, (ps j).get i = some q → i < cfg.numParticipants) (hg2 : cfg.srs.g2 ≠ 0)
    (ht : cfg.degree + 2 ≤ cfg.numParticipants) (hcap : cfg.numParticipants < 2 ^ 58) (k : ℕ)
    (adv : List (List (ZMod blsR)) → ℕ × (PVSSShare blsR G1 G2 ⊕ AggShare blsR G1 G2)) (tail : ℕ → Rng blsR) :
    (∀ m, chance (times (times frRand (cfg.numParticipants - cfg.degree - 1)) k) (fun cs => ∃ i j, ¬ Spec.Codeword blsR cfg.degree
      (Spec.deliver S m (fun j => Aggregator.new cfg (ps j)) ((Spec.siegeList adv tail cs).take i) j).tx.core.comms) ≤
      k * (blsR : ℝ≥0∞)⁻¹) ∧
    chance (times (times frRand (cfg.numParticipants - cfg.degree - 1)) k) (fun cs => ∃ i, ¬ Spec.Agreed S cfg
      (Spec.deliver S .checked (fun j => Aggregator.new cfg (ps j)) ((Spec.siegeList adv tail cs).take i))) ≤
      k * (blsR : ℝ≥0∞)⁻¹ := by
  classical
  refine ⟨fun m => ?_, ?_⟩
  · rw [(rows_uniform _ _).chance_eq]
    refine ratio_le Fintype.card_ne_zero blsR_ne ?_
    refine le_trans (Nat.mul_le_mul_right _ (card_mono fun c hc => ?_))
      (C113 S hS m cfg ps ht (bls_small hcap).le hcap k _ rfl (fun l => adv (l.map List.ofFn)) tail)
    rw [← siegeList_ofFn]
    exact hc
  · rw [(rows_uniform _ _).chance_eq]
    refine ratio_le Fintype.card_ne_zero blsR_ne ?_
    refine le_trans (Nat.mul_le_mul_right _ (card_mono fun c hc => ?_))
      (C113_agreement S hS cfg ps hids hg2 ht (bls_small hcap).le hcap k _ rfl (fun l => adv (l.map List.ofFn)) tail)
    rw [← siegeList_ofFn]
    exact hc

end Verif
