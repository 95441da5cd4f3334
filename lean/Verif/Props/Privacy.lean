import Verif.Props.Deal
import Verif.Props.Degree
import Mathlib.Algebra.Polynomial.BigOperators
import Mathlib.Algebra.BigOperators.Fin
import Mathlib.Data.Fintype.Pi

/-!
# t-privacy: C59
-/

open Finset Polynomial

set_option linter.unusedSectionVars false

namespace Verif

variable {r : ℕ} [Fact r.Prime] {G1 G2 : Type}
  [AddCommGroup G1] [DecidableEq G1] [AddCommGroup G2] [DecidableEq G2]
  [Module (ZMod r) G1] [Module (ZMod r) G2]

/-- Value at `x` of the polynomial with coefficients `c 0, …, c t`. -/
def Spec.evalAt {t : ℕ} (c : Fin (t + 1) → ZMod r) (x : ZMod r) : ZMod r := ∑ k, c k * x ^ (k : ℕ)

theorem point_ne_zero {i n : ℕ} (hn : n < r) (hi : i < n) : Spec.point r i ≠ 0 :=
  natCast_ne_zero_of_lt (Nat.succ_pos i) (by omega)

/-- A polynomial with value 1 at zero that vanishes at the points of `T`, as a coefficient vector. -/
theorem exists_blinder {t n : ℕ} (hn : n < r) (T : Finset ℕ) (hT : ∀ i ∈ T, i < n) (hc : T.card ≤ t) :
    ∃ q : Fin (t + 1) → ZMod r, Spec.evalAt q 0 = 1 ∧ ∀ i ∈ T, Spec.evalAt q (Spec.point r i) = 0 := by
  set Q : (ZMod r)[X] := ∏ i ∈ T, (1 - C (Spec.point r i)⁻¹ * X) with hQ
  have hdeg : Q.natDegree ≤ t := by
    refine (natDegree_prod_le _ _).trans ?_
    refine (sum_le_card_nsmul _ _ 1 fun i _ => ?_).trans (by simpa using hc)
    compute_degree
  have hev : ∀ x, Spec.evalAt (fun k : Fin (t + 1) => Q.coeff k) x = Q.eval x := by
    intro x
    rw [eval_eq_sum_range' (Nat.lt_succ_of_le hdeg), Spec.evalAt,
      Fin.sum_univ_eq_sum_range (fun k => Q.coeff k * x ^ k)]
  refine ⟨fun k => Q.coeff k, ?_, fun i hi => ?_⟩
  · rw [hev, hQ, eval_prod]
    simp
  · rw [hev, hQ, eval_prod]
    refine prod_eq_zero hi ?_
    simp [inv_mul_cancel₀ (point_ne_zero hn (hT i hi))]

theorem evalAt_add {t : ℕ} (c d : Fin (t + 1) → ZMod r) (x : ZMod r) :
    Spec.evalAt (c + d) x = Spec.evalAt c x + Spec.evalAt d x := by
  simp [Spec.evalAt, add_mul, sum_add_distrib]

theorem evalAt_smul {t : ℕ} (a : ZMod r) (d : Fin (t + 1) → ZMod r) (x : ZMod r) :
    Spec.evalAt (a • d) x = a * Spec.evalAt d x := by
  simp [Spec.evalAt, mul_sum, mul_assoc]

open Classical in
/-- **C59**. Among the `r^(t+1)` coefficient vectors, the number of those consistent with the decrypted shares `view i` of
any at most `t` parties and with the secret `s` does not depend on `s`. -/
theorem C59 {t n : ℕ} (hn : n < r) (T : Finset ℕ) (hT : ∀ i ∈ T, i < n) (hc : T.card ≤ t) (g1 : G1) (view : ℕ → G1)
    (s s' : ZMod r) :
    (univ.filter fun c : Fin (t + 1) → ZMod r =>
      Spec.evalAt c 0 = s ∧ ∀ i ∈ T, Spec.evalAt c (Spec.point r i) • g1 = view i).card =
    (univ.filter fun c : Fin (t + 1) → ZMod r =>
      Spec.evalAt c 0 = s' ∧ ∀ i ∈ T, Spec.evalAt c (Spec.point r i) • g1 = view i).card := by
  obtain ⟨q, hq0, hqT⟩ := exists_blinder hn T hT hc
  have key : ∀ (a b : ZMod r) (c : Fin (t + 1) → ZMod r),
      (Spec.evalAt c 0 = a ∧ ∀ i ∈ T, Spec.evalAt c (Spec.point r i) • g1 = view i) →
      (Spec.evalAt (c + (b - a) • q) 0 = b ∧ ∀ i ∈ T, Spec.evalAt (c + (b - a) • q) (Spec.point r i) • g1 = view i) := by
    intro a b c ⟨h1, h2⟩
    refine ⟨?_, fun i hi => ?_⟩
    · rw [evalAt_add, evalAt_smul, hq0, h1]; ring
    · rw [evalAt_add, evalAt_smul, hqT i hi, mul_zero, add_zero, h2 i hi]
  refine card_nbij' (fun c => c + (s' - s) • q) (fun c => c + (s - s') • q) ?_ ?_ ?_ ?_
  · intro c hc; simpa using key s s' c (by simpa using hc)
  · intro c hc; simpa using key s' s c (by simpa using hc)
  · intro c _
    simp only
    rw [add_assoc, ← add_smul]; simp
  · intro c _
    simp only
    rw [add_assoc, ← add_smul]; simp

/-- The dealer's run with coefficients `c` hands the parties in `T` the decrypted shares `view` and has the secret `s`. -/
def Spec.Consistent (m : Mode) (nd : Node r G1 G2) (sk : ℕ → ZMod r) (T : Finset ℕ) (view : ℕ → G1) (s : ZMod r)
    (rng : Rng r) : Prop :=
  ∃ core sec rng', nd.sharePvss m rng = .ok ((core, sec), rng') ∧ sec.p0 = s ∧
    ∀ i ∈ T, (DecryptedShare.generate core.encs (sk i) i : Res PVSSError _) = .ok ⟨view i, i⟩

theorem consistent_iff (m : Mode) (nd : Node r G1 G2) (sk : ℕ → ZMod r) (T : Finset ℕ) (view : ℕ → G1) (s : ZMod r)
    (ht : nd.aggregator.config.degree + 1 < 2 ^ 58)
    (hid : nd.dealer.participant.id < nd.aggregator.config.numParticipants) (pk : ℕ → G1)
    (hk : Spec.KeyTable nd.aggregator.participants nd.aggregator.config.numParticipants pk)
    (hT : ∀ i ∈ T, i < nd.aggregator.config.numParticipants)
    (hsk : ∀ i ∈ T, sk i ≠ 0 ∧ pk i = sk i • nd.aggregator.config.srs.g1)
    (c : Fin (nd.aggregator.config.degree + 1) → ZMod r) (tail : ℕ → ZMod r) :
    Spec.Consistent m nd sk T view s (Spec.withPrefix c tail) ↔
      c ≠ 0 ∧ Spec.evalAt c 0 = s ∧
        ∀ i ∈ T, Spec.evalAt c (Spec.point r i) • nd.aggregator.config.srs.g1 = view i := by
  have hwp : ∀ k : Fin (nd.aggregator.config.degree + 1), Spec.withPrefix c tail k = c k := by
    intro k
    rw [Spec.withPrefix, dif_pos k.2]
  have hev : ∀ x, polyEval (trim ((List.range (nd.aggregator.config.degree + 1)).map (Spec.withPrefix c tail))) x =
      Spec.evalAt c x := by
    intro x
    rw [polyEval_trim, polyEval_range,
      ← Fin.sum_univ_eq_sum_range (fun k => Spec.withPrefix c tail k * x ^ k), Spec.evalAt]
    refine sum_congr rfl fun k _ => ?_
    rw [hwp]
  have hnil : trim ((List.range (nd.aggregator.config.degree + 1)).map (Spec.withPrefix c tail)) = [] ↔ c = 0 := by
    rw [trim_eq_nil_iff]
    simp only [List.mem_map, List.mem_range, forall_exists_index, and_imp, forall_apply_eq_imp_iff₂]
    constructor
    · intro h
      funext k
      have := h k k.2
      rwa [hwp] at this
    · rintro rfl k hk
      simp [Spec.withPrefix, hk]
  have hps : ∀ i < nd.aggregator.config.numParticipants, ∃ q, nd.aggregator.participants.get i = some q :=
    fun i hi => (hk i hi).imp fun q hq => hq.1
  unfold Spec.Consistent
  rw [sharePvss_eq, polyRand_ok m _ ht, Res.bind_ok']
  simp only
  by_cases hc : c = 0
  · constructor
    · rintro ⟨core, sec, rng', h, -⟩
      exact absurd (hnil.2 hc) ((shareRest_ok_iff m nd _ _).1 ⟨_, h⟩).2.2
    · rintro ⟨h, -⟩; exact absurd hc h
  · rw [shareRest_ok m nd _ _ pk hid hk (mt hnil.1 hc)]
    have hdec : ∀ i ∈ T, (DecryptedShare.generate (dealCore nd pk
        (trim ((List.range (nd.aggregator.config.degree + 1)).map (Spec.withPrefix c tail)))).encs (sk i) i :
          Res PVSSError _) = .ok ⟨Spec.evalAt c (Spec.point r i) • nd.aggregator.config.srs.g1, i⟩ := by
      intro i hi
      refine ((C05 _ (sk i) i).2.1 _).2 ⟨(hsk i hi).1, rfl, ?_⟩
      simp only [dealCore]
      rw [List.getElem?_eq_getElem (by simpa using hT i hi)]
      simp only [List.getElem_map, List.getElem_range, (hsk i hi).2, hev]
      rw [smul_smul, smul_smul, mul_comm]
    constructor
    · rintro ⟨core, sec, rng', h, h1, h2⟩
      obtain ⟨h3, -⟩ := Prod.mk.inj (Res.ok.inj h)
      obtain ⟨rfl, rfl⟩ := Prod.mk.inj h3
      refine ⟨hc, ?_, fun i hi => ?_⟩
      · rw [← h1]; simp only; rw [hev]
      · have := h2 i hi
        rw [hdec i hi] at this
        exact (DecryptedShare.mk.inj (Res.ok.inj this)).1
    · rintro ⟨-, h1, h2⟩
      refine ⟨_, _, _, rfl, ?_, fun i hi => ?_⟩
      · simp only; rw [hev, h1]
      · rw [hdec i hi, h2 i hi]

open Classical in
/-- **C59** (for `share_pvss` and `DecryptedShare::generate`). For every set of at most `t` parties and every view of
their decrypted shares, the number of draws with which the dealer shares the secret `s` and produces this view is the same
for all `s` — with the single exception of the all-zero view, where the secret zero is excluded (see `C59_zero`). -/
theorem C59_share (m : Mode) (nd : Node r G1 G2) (sk : ℕ → ZMod r) (T : Finset ℕ) (view : ℕ → G1) (s s' : ZMod r)
    (ht : nd.aggregator.config.degree + 1 < 2 ^ 58)
    (hid : nd.dealer.participant.id < nd.aggregator.config.numParticipants) (pk : ℕ → G1)
    (hk : Spec.KeyTable nd.aggregator.participants nd.aggregator.config.numParticipants pk)
    (hn : nd.aggregator.config.numParticipants < r)
    (hT : ∀ i ∈ T, i < nd.aggregator.config.numParticipants) (hcard : T.card ≤ nd.aggregator.config.degree)
    (hsk : ∀ i ∈ T, sk i ≠ 0 ∧ pk i = sk i • nd.aggregator.config.srs.g1) (tail : ℕ → ZMod r)
    (hne : (∃ i ∈ T, view i ≠ 0) ∨ (s ≠ 0 ∧ s' ≠ 0)) :
    (univ.filter fun c : Fin (nd.aggregator.config.degree + 1) → ZMod r =>
      Spec.Consistent m nd sk T view s (Spec.withPrefix c tail)).card =
    (univ.filter fun c : Fin (nd.aggregator.config.degree + 1) → ZMod r =>
      Spec.Consistent m nd sk T view s' (Spec.withPrefix c tail)).card := by
  have hnz : ∀ a : ZMod r, (a = s ∨ a = s') → ∀ c : Fin (nd.aggregator.config.degree + 1) → ZMod r,
      (Spec.evalAt c 0 = a ∧ ∀ i ∈ T, Spec.evalAt c (Spec.point r i) • nd.aggregator.config.srs.g1 = view i) → c ≠ 0 := by
    rintro a ha c ⟨h1, h2⟩ rfl
    rcases hne with ⟨i, hi, hv⟩ | ⟨h3, h4⟩
    · apply hv; rw [← h2 i hi]; simp [Spec.evalAt]
    · have : a = 0 := by rw [← h1]; simp [Spec.evalAt]
      rcases ha with rfl | rfl
      · exact h3 this
      · exact h4 this
  refine Eq.trans ?_ (Eq.trans (C59 hn T hT hcard nd.aggregator.config.srs.g1 view s s') ?_)
  · congr 1
    refine filter_congr fun c _ => ?_
    rw [consistent_iff m nd sk T view s ht hid pk hk hT hsk]
    exact ⟨fun h => h.2, fun h => ⟨hnz s (Or.inl rfl) c h, h⟩⟩
  · congr 1
    refine filter_congr fun c _ => ?_
    rw [consistent_iff m nd sk T view s' ht hid pk hk hT hsk]
    exact ⟨fun h => ⟨hnz s' (Or.inr rfl) c h, h⟩, fun h => h.2⟩

open Classical in
/-- **C59** (the exception). When all decrypted shares of the view are zero, exactly one draw fewer leads to the secret zero
than to any other secret: the zero polynomial, on which `share_pvss` panics. -/
theorem C59_zero (m : Mode) (nd : Node r G1 G2) (sk : ℕ → ZMod r) (T : Finset ℕ) (s : ZMod r) (hs : s ≠ 0)
    (ht : nd.aggregator.config.degree + 1 < 2 ^ 58)
    (hid : nd.dealer.participant.id < nd.aggregator.config.numParticipants) (pk : ℕ → G1)
    (hk : Spec.KeyTable nd.aggregator.participants nd.aggregator.config.numParticipants pk)
    (hn : nd.aggregator.config.numParticipants < r)
    (hT : ∀ i ∈ T, i < nd.aggregator.config.numParticipants) (hcard : T.card ≤ nd.aggregator.config.degree)
    (hsk : ∀ i ∈ T, sk i ≠ 0 ∧ pk i = sk i • nd.aggregator.config.srs.g1) (tail : ℕ → ZMod r) :
    (univ.filter fun c : Fin (nd.aggregator.config.degree + 1) → ZMod r =>
      Spec.Consistent m nd sk T (fun _ => 0) 0 (Spec.withPrefix c tail)).card + 1 =
    (univ.filter fun c : Fin (nd.aggregator.config.degree + 1) → ZMod r =>
      Spec.Consistent m nd sk T (fun _ => 0) s (Spec.withPrefix c tail)).card := by
  refine Eq.trans ?_ (Eq.trans (C59 hn T hT hcard nd.aggregator.config.srs.g1 (fun _ => 0) 0 s) ?_)
  · have hmem : (0 : Fin (nd.aggregator.config.degree + 1) → ZMod r) ∈ univ.filter
        fun c : Fin (nd.aggregator.config.degree + 1) → ZMod r => Spec.evalAt c 0 = 0 ∧
          ∀ i ∈ T, Spec.evalAt c (Spec.point r i) • nd.aggregator.config.srs.g1 = (0 : G1) := by
      simp [Spec.evalAt]
    rw [← card_erase_add_one hmem]
    congr 2
    ext c
    simp only [mem_filter, mem_univ, true_and, mem_erase, consistent_iff m nd sk T (fun _ => 0) 0 ht hid pk hk hT hsk]
  · congr 1
    refine filter_congr fun c _ => ?_
    rw [consistent_iff m nd sk T _ s ht hid pk hk hT hsk]
    refine ⟨fun h => ⟨?_, h⟩, fun h => h.2⟩
    rintro rfl
    apply hs
    rw [← h.1]; simp [Spec.evalAt]

/-- Non-vacuity of C59: the hypotheses hold for the concrete node and the view of party 3 (`T = {3}`, `t = 1`). -/
example : (∀ i ∈ ({3} : Finset ℕ), i < (Toy.node 2).aggregator.config.numParticipants) ∧
    ({3} : Finset ℕ).card ≤ (Toy.node 2).aggregator.config.degree ∧
    Spec.KeyTable (Toy.node 2).aggregator.participants 4 Toy.sk ∧
    Spec.Consistent .checked (Toy.node 2) Toy.sk {3} (fun _ => 0) 5 (Spec.withPrefix ![5, 2] fun _ => 0) := by
  have hk : Spec.KeyTable (Toy.node 2).aggregator.participants 4 Toy.sk := by
    intro i hi
    match i, hi with
    | 0, _ => exact ⟨_, rfl, rfl⟩
    | 1, _ => exact ⟨_, rfl, rfl⟩
    | 2, _ => exact ⟨_, rfl, rfl⟩
    | 3, _ => exact ⟨_, rfl, rfl⟩
  refine ⟨by decide, by decide, hk, ?_⟩
  refine (consistent_iff .checked (Toy.node 2) Toy.sk {3} (fun _ => 0) 5 (by decide) (by decide) Toy.sk hk (by decide)
    (by decide) ![5, 2] (fun _ => 0)).2 ⟨by decide, by decide, by decide⟩

end Verif
