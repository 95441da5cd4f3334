import Verif.Lemmas.Count
import Verif.Props.Verify

/-!
# The batched pairing check with independent scalars: C107

The comment at aggregator.rs:183-185 asks for a scalar `r_i` per party; the code at 188 draws one and repeats it, which is why C21
is false.  Everything after line 188 takes a vector of scalars, and is proved here to be a sound check for independent ones.
-/

open Finset

set_option linter.unusedSectionVars false

namespace Verif

variable {r : ℕ} [Fact r.Prime] {G1 G2 K : Type}
  [AddCommGroup G1] [DecidableEq G1] [AddCommGroup G2] [DecidableEq G2] [CommMonoid K] [DecidableEq K]
  [Module (ZMod r) G1] [Module (ZMod r) G2]

/-- Lines 190-204 of aggregator.rs with the vector `rs` for `r`: the loop succeeds and the product of the pairings is one. -/
def Spec.BatchPasses (S : Suite r G1 G2 K) (a : Aggregator r G1 G2) (core : PVSSCore G1 G2) (rs : List (ZMod r)) : Prop :=
  ∃ x, loop (a.pairStep core rs) (0, []) (List.range a.config.numParticipants) = .ok x ∧
    prodPairings S (x.2 ++ [(-x.1, a.config.srs.g2)]) = 1

/-- The check commented out at aggregator.rs:166-180. -/
def Spec.SlotsPass (S : Suite r G1 G2 K) (a : Aggregator r G1 G2) (core : PVSSCore G1 G2) : Prop :=
  ∀ i < a.config.numParticipants, ∃ q e c, a.participants.get i = some q ∧ core.encs[i]? = some e ∧ core.comms[i]? = some c ∧
    prodPairings S [(q.pkSig, c), (-e, a.config.srs.g2)] = 1

theorem pairLoop_list (a : Aggregator r G1 G2) (core : PVSSCore G1 G2) (rs : List (ZMod r)) {n : ℕ} (pk : ℕ → G1)
    (hk : Spec.KeyTable a.participants n pk) (he : core.encs.length = n) (hc : core.comms.length = n) (hr : rs.length = n) :
    loop (a.pairStep core rs) (0, []) (List.range n) =
      .ok (((List.range n).map fun i => rs.getD i 0 • core.encs.getD i 0).sum,
        (List.range n).map fun i => (rs.getD i 0 • pk i, core.comms.getD i 0)) := by
  have key : ∀ k ≤ n, loop (a.pairStep core rs) (0, []) (List.range k) =
      .ok (((List.range k).map fun i => rs.getD i 0 • core.encs.getD i 0).sum,
        (List.range k).map fun i => (rs.getD i 0 • pk i, core.comms.getD i 0)) := by
    intro k hkn
    induction k with
    | zero => simp [loop]
    | succ k ih =>
      rw [List.range_succ, loop_append, ih (by omega), Res.bind_ok', loop_cons]
      obtain ⟨q, hq, hpk⟩ := hk k (by omega)
      unfold Aggregator.pairStep
      rw [idx_ok (by omega), Res.bind_ok', idx_ok (by omega), Res.bind_ok', hq, Res.unwrapOpt_some, Res.bind_ok',
        idx_ok (by omega), Res.bind_ok', Res.bind_ok', loop_nil]
      simp only [List.map_append, List.sum_append, List.map_cons, List.map_nil, List.sum_cons, List.sum_nil, add_zero,
        mulRepr_eq_smul, hpk]
      rw [getD_lt 0 (by omega : k < rs.length), getD_lt 0 (by omega : k < core.encs.length),
        getD_lt 0 (by omega : k < core.comms.length)]
  exact key n (le_refl n)

theorem sum_map_range {M : Type} [AddCommMonoid M] (f : ℕ → M) (n : ℕ) : ((List.range n).map f).sum = ∑ i : Fin n, f i := by
  rw [Fin.sum_univ_eq_sum_range]
  induction n with
  | zero => rfl
  | succ n ih => rw [List.range_succ, List.map_append, List.sum_append, ih, Finset.sum_range_succ]; simp

/-- The product, with the commitments written as multiples of `g2`. -/
theorem batchPasses_iff {S : Suite r G1 G2 K} (hS : PairLaws S) (a : Aggregator r G1 G2) (core : PVSSCore G1 G2) (rs : List (ZMod r))
    (pk : ℕ → G1) (hk : Spec.KeyTable a.participants a.config.numParticipants pk)
    (he : core.encs.length = a.config.numParticipants) (hc : core.comms.length = a.config.numParticipants)
    (hr : rs.length = a.config.numParticipants) (hg : a.config.srs.g2 ≠ 0) (s : ℕ → ZMod r)
    (hs : ∀ i < a.config.numParticipants, core.comms.getD i 0 = s i • a.config.srs.g2) :
    Spec.BatchPasses S a core rs ↔
      ∑ i : Fin a.config.numParticipants, rs.getD i 0 • (s i • pk i - core.encs.getD i 0) = 0 := by
  unfold Spec.BatchPasses
  rw [pairLoop_list a core rs pk hk he hc hr]
  simp only [Res.ok.injEq, exists_eq_left']
  have hprod : prodPairings S (((List.range a.config.numParticipants).map fun i => (rs.getD i 0 • pk i, core.comms.getD i 0)) ++
      [(-((List.range a.config.numParticipants).map fun i => rs.getD i 0 • core.encs.getD i 0).sum, a.config.srs.g2)]) =
      S.pair ((List.range a.config.numParticipants).map fun i => rs.getD i 0 • s i • pk i).sum a.config.srs.g2 *
        S.pair (-((List.range a.config.numParticipants).map fun i => rs.getD i 0 • core.encs.getD i 0).sum) a.config.srs.g2 := by
    unfold prodPairings
    rw [List.map_append, List.map_map, List.prod_append, hS.sum_left]
    simp only [List.map_cons, List.map_nil, List.prod_cons, List.prod_nil, mul_one]
    congr 2
    refine List.map_congr_left fun i hi => ?_
    simp only [Function.comp]
    rw [hs i (List.mem_range.1 hi), ← hS.smul_comm, smul_comm]
  rw [hprod, ← hS.add_left]
  have hsum : ((List.range a.config.numParticipants).map fun i => rs.getD i 0 • s i • pk i).sum +
      -((List.range a.config.numParticipants).map fun i => rs.getD i 0 • core.encs.getD i 0).sum =
      ∑ i : Fin a.config.numParticipants, rs.getD i 0 • (s i • pk i - core.encs.getD i 0) := by
    rw [sum_map_range, sum_map_range, ← sub_eq_add_neg, ← Finset.sum_sub_distrib]
    simp only [smul_sub]
  rw [hsum]
  constructor
  · intro h
    exact (hS.nondeg _ _ h).resolve_right hg
  · intro h
    rw [h, hS.zero_left]

theorem comms_scalars (hc : CyclicGroup r G2) {g2 : G2} (hg : g2 ≠ 0) (l : List G2) :
    ∃ s : ℕ → ZMod r, ∀ i, l.getD i 0 = s i • g2 := by
  choose s hs using fun i => hc g2 (l.getD i 0) hg
  exact ⟨s, hs⟩

open Classical in
/-- **C107** (sound). If the encryption of some party is wrong, the check with a vector of scalars passes for at most one in `r` of
the vectors. -/
theorem C107_sound (S : Suite r G1 G2 K) (hS : PairLaws S) (hc : CyclicGroup r G2) (a : Aggregator r G1 G2) (core : PVSSCore G1 G2)
    (hg : a.config.srs.g2 ≠ 0) (he : core.encs.length = a.config.numParticipants)
    (hl : core.comms.length = a.config.numParticipants)
    (hw : ¬ Spec.AllEncOk S a.config.srs.g2 a.participants a.config.numParticipants core) :
    (univ.filter fun ρ : Fin a.config.numParticipants → ZMod r => Spec.BatchPasses S a core (List.ofFn ρ)).card * r ≤
      r ^ a.config.numParticipants := by
  by_cases hex : ∃ ρ : Fin a.config.numParticipants → ZMod r, Spec.BatchPasses S a core (List.ofFn ρ)
  · obtain ⟨ρ0, x, hx, -⟩ := hex
    have hkeys : ∀ i, ∃ k : G1, i < a.config.numParticipants → ∃ q, a.participants.get i = some q ∧ q.pkSig = k := by
      intro i
      by_cases hi : i < a.config.numParticipants
      · obtain ⟨q, hq⟩ := pairLoop_ok_keys hx i hi
        exact ⟨q.pkSig, fun _ => ⟨q, hq, rfl⟩⟩
      · exact ⟨0, fun h => absurd h hi⟩
    choose pk hpk using hkeys
    obtain ⟨s, hs⟩ := comms_scalars hc hg core.comms
    have hbad : ∃ k : Fin a.config.numParticipants, s k • pk k - core.encs.getD k 0 ≠ 0 := by
      by_contra hall
      push Not at hall
      refine hw fun i hi => ?_
      obtain ⟨q, hq, hqk⟩ := hpk i hi
      have h1 := hall ⟨i, hi⟩
      simp only [sub_eq_zero] at h1
      have hi1 : i < core.encs.length := by omega
      have hi2 : i < core.comms.length := by omega
      refine ⟨q, hq, core.encs[i], core.comms[i], List.getElem?_eq_getElem hi1, List.getElem?_eq_getElem hi2, ?_⟩
      have h2 := hs i
      rw [getD_lt 0 hi2] at h2
      rw [getD_lt 0 hi1] at h1
      rw [h2, ← h1, hqk, hS.smul_comm]
    obtain ⟨k, hk⟩ := hbad
    have := card_linear_le (r := r) (fun i : Fin a.config.numParticipants => s i • pk i - core.encs.getD i 0) 0 (k := k) hk
    refine le_trans (Nat.mul_le_mul_right r (Finset.card_le_card fun ρ hρ => ?_)) this
    have h3 := (batchPasses_iff hS a core (List.ofFn ρ) pk hpk he hl (by simp) hg s fun i _ => hs i).1 (mem_filter.1 hρ).2
    refine (@Finset.mem_filter _ _ (_) _ _).2 ⟨mem_univ _, Eq.trans (Finset.sum_congr rfl fun i _ => ?_) h3⟩
    rw [getD_lt 0 (by simp : (i : ℕ) < (List.ofFn ρ).length)]
    simp
  · push Not at hex
    rw [Finset.filter_false_of_mem fun ρ _ => hex ρ]
    simp

/-- **C107** (complete). Correct encryptions pass with every vector of scalars, and pass the check of every slot. -/
theorem C107_complete (S : Suite r G1 G2 K) (hS : PairLaws S) (hc : CyclicGroup r G2) (a : Aggregator r G1 G2)
    (core : PVSSCore G1 G2) (hg : a.config.srs.g2 ≠ 0) (he : core.encs.length = a.config.numParticipants)
    (hl : core.comms.length = a.config.numParticipants)
    (hw : Spec.AllEncOk S a.config.srs.g2 a.participants a.config.numParticipants core)
    (ρ : Fin a.config.numParticipants → ZMod r) : Spec.BatchPasses S a core (List.ofFn ρ) := by
  have hkeys : ∀ i, ∃ k : G1, i < a.config.numParticipants → ∃ q, a.participants.get i = some q ∧ q.pkSig = k := by
    intro i
    by_cases hi : i < a.config.numParticipants
    · obtain ⟨q, hq, -⟩ := hw i hi
      exact ⟨q.pkSig, fun _ => ⟨q, hq, rfl⟩⟩
    · exact ⟨0, fun h => absurd h hi⟩
  choose pk hpk using hkeys
  obtain ⟨s, hs⟩ := comms_scalars hc hg core.comms
  refine (batchPasses_iff hS a core (List.ofFn ρ) pk hpk he hl (by simp) hg s fun i _ => hs i).2 ?_
  refine Finset.sum_eq_zero fun i _ => ?_
  obtain ⟨q, hq, e, c, h1, h2, h3⟩ := hw i i.2
  obtain ⟨q', hq', hk⟩ := hpk i i.2
  rw [hq, Option.some.injEq] at hq'
  subst hq'
  have e1 : core.encs.getD i 0 = e := by simp [List.getD, h1]
  have e2 : core.comms.getD i 0 = c := by simp [List.getD, h2]
  have h4 : s i • pk i = e := by
    refine hS.left_inj hg ?_
    rw [hS.smul_comm, ← hs i, e2, ← hk, h3]
  rw [e1, h4, sub_self, smul_zero]

/-- **C107** (slots). The check that is commented out in the source accepts exactly the correct encryptions. -/
theorem C107_slots (S : Suite r G1 G2 K) (hS : PairLaws S) (a : Aggregator r G1 G2) (core : PVSSCore G1 G2) :
    Spec.SlotsPass S a core ↔ Spec.AllEncOk S a.config.srs.g2 a.participants a.config.numParticipants core := by
  constructor
  · intro h i hi
    obtain ⟨q, e, c, h1, h2, h3, h4⟩ := h i hi
    exact ⟨q, h1, e, c, h2, h3, (pairCheck_iff hS _ _ _ _).1 h4⟩
  · intro h i hi
    obtain ⟨q, h1, e, c, h2, h3, h4⟩ := h i hi
    exact ⟨q, e, c, h1, h2, h3, (pairCheck_iff hS _ _ _ _).2 h4⟩

/-- Wrong encryptions for the toy parties 0 and 1. -/
def Toy.wrongCore : PVSSCore (ZMod 13) (ZMod 13) := ⟨[15, 26, 44, 65], [7, 9, 11, 13]⟩

theorem Toy.wrongCore_wrong : ¬ Spec.AllEncOk (Toy.suite 13) 1 Toy.agg.participants 4 Toy.wrongCore := by
  intro h
  obtain ⟨q, hq, e, c, he, hc, hp⟩ := h 0 (by decide)
  have : Toy.agg.participants.get 0 = some (Toy.participant 0 (Toy.sk 0)) := rfl
  rw [this] at hq
  cases hq
  cases hc
  cases he
  revert hp
  decide

open Classical in
/-- Non-vacuity of C107_sound, and the contrast with the code: these encryptions pass with at most one in 13 of the vectors, but
with every vector of four equal scalars. -/
example : (univ.filter fun ρ : Fin 4 → ZMod 13 => Spec.BatchPasses (Toy.suite 13) Toy.agg Toy.wrongCore (List.ofFn ρ)).card * 13 ≤
      13 ^ 4 ∧
    ∀ ρ : ZMod 13, Spec.BatchPasses (Toy.suite 13) Toy.agg Toy.wrongCore (List.replicate 4 ρ) := by
  refine ⟨C107_sound (Toy.suite 13) (Toy.pairLaws 13) (Toy.cyclic 13) Toy.agg Toy.wrongCore (by decide) rfl rfl
    Toy.wrongCore_wrong, fun ρ => ?_⟩
  have hk : Spec.KeyTable Toy.agg.participants 4 Toy.sk := by
    intro i hi
    match i, hi with
    | 0, _ => exact ⟨_, rfl, rfl⟩
    | 1, _ => exact ⟨_, rfl, rfl⟩
    | 2, _ => exact ⟨_, rfl, rfl⟩
    | 3, _ => exact ⟨_, rfl, rfl⟩
  refine ⟨_, pairLoop_eq Toy.agg Toy.wrongCore ρ _ hk rfl rfl, (batch_iff (Toy.pairLaws 13) Toy.sk Toy.wrongCore ρ 1).2 ?_⟩
  revert ρ
  unfold Spec.BatchEq
  decide

end Verif
