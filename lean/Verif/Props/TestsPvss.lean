import Verif.Props.Tests

/-!
# The unit tests of decomposition proofs, cores and polynomials pass (C101, continued)
-/

namespace Verif

set_option linter.unusedSectionVars false

open Spec

variable {r : ℕ} [Fact r.Prime] {G1 G2 K : Type} [AddCommGroup G1] [DecidableEq G1] [Module (ZMod r) G1]
  [AddCommGroup G2] [DecidableEq G2] [Module (ZMod r) G2] [CommMonoid K] [DecidableEq K]

/-- One of the first `t + 1` draws, the coefficients of a random polynomial, is not zero. -/
def Spec.SomeCoeff (rng : Rng r) (t : ℕ) : Prop := ∃ k ≤ t, rng k ≠ 0

theorem idx_head_ok {ε : Type} {rng : Rng r} {t : ℕ} (h : SomeCoeff rng t) :
    (idx (trim ((List.range (t + 1)).map rng)) 0 : Res ε _) = .ok (rng 0) := by
  have hne : trim ((List.range (t + 1)).map rng) ≠ [] := by
    rw [Ne, trim_eq_nil_iff]
    obtain ⟨k, hk, h0⟩ := h
    intro h
    exact h0 (h _ (List.mem_map.2 ⟨k, List.mem_range.2 (by omega), rfl⟩))
  rw [idx_eq_ok, trim_getElem_zero hne]
  simp

theorem idx_head_panic {ε : Type} {rng : Rng r} {t : ℕ} (h : ¬ SomeCoeff rng t) :
    (idx (trim ((List.range (t + 1)).map rng)) 0 : Res ε _) = .panic := by
  have : trim ((List.range (t + 1)).map rng) = [] := by
    rw [trim_eq_nil_iff]
    intro a ha
    obtain ⟨k, hk, rfl⟩ := List.mem_map.1 ha
    by_contra h0
    exact h ⟨k, by simpa [Nat.lt_succ_iff] using hk, h0⟩
  rw [this]; rfl

theorem returns_head {rng : Rng r} {t : ℕ} {f : ZMod r → Tests.Outcome} {q : Prop} (h : Returns (f (rng 0)) q) :
    Returns (idx (trim ((List.range (t + 1)).map rng)) 0 >>= f) (SomeCoeff rng t ∧ q) := by
  by_cases hs : SomeCoeff rng t
  · rw [idx_head_ok hs, Res.bind_ok']
    exact returns_congr h (by simp [hs])
  · rw [idx_head_panic hs]
    exact ⟨fun h => absurd h.1 hs, fun _ => rfl⟩

theorem returns_head_ok {rng : Rng r} {t : ℕ} {f : ZMod r → Tests.Outcome} (h : f (rng 0) = .ok ()) :
    Returns (idx (trim ((List.range (t + 1)).map rng)) 0 >>= f) (SomeCoeff rng t) :=
  returns_congr (returns_head (q := True) ⟨fun _ => h, fun h => absurd trivial h⟩) (by simp)

/-! ## modified_scrape/decomp.rs -/

/-- **C101** (decomp, simple). The function panics exactly when all four coefficients drawn are zero (`poly.coeffs[0]`). -/
theorem C101_decomp_simple (S : Suite r G1 G2 K) (hH : HashTotal S.hash) (m : Mode) (srs : SRS G1 G2) (rng : Rng r) :
    Returns (Tests.decompSimple S m srs rng) (SomeCoeff rng 3) := by
  unfold Tests.decompSimple
  rw [polyRand_ok m rng (by norm_num), Res.bind_ok']
  refine returns_head_ok ?_
  obtain ⟨d, hd⟩ := C43_total S hH (rng.drop (3 + 1)) ⟨srs, 3, 10⟩ (rng 0)
  have hv := (C43 S _ _ _ _ _ hd).2
  simp only [hd, Res.unwrap_ok, Res.bind_ok', hv]

/-- **C101** (decomp, invalid). The draws are: four coefficients, the nonce, the new challenge. -/
theorem C101_decomp_invalid (S : Suite r G1 G2 K) (hH : HashTotal S.hash) (m : Mode) (srs : SRS G1 G2) (rng : Rng r) :
    Returns (Tests.decompInvalid S m srs rng)
      (SomeCoeff rng 3 ∧ DLK.challenge S.c2 S.hash srs.g2 (rng 4 • srs.g2) = .ok (rng 5)) := by
  unfold Tests.decompInvalid
  rw [polyRand_ok m rng (by norm_num), Res.bind_ok']
  refine returns_head ?_
  obtain ⟨c, hc⟩ := dlk_challenge_ok S.c2 S.hash hH srs.g2 (rng 4 • srs.g2)
  have hp := dlk_prove_eq S.c2 S.hash srs.g2 (rng.drop (3 + 1)) (rng 0) c hc
  simp only [Decomp.generate, hp, Res.unwrap_ok, Res.bind_ok', DecompProof.verify, mulRepr_eq_smul]
  have h := C39 S.c2 S.hash srs.g2 (rng 0 • srs.g2) (rng 4 • srs.g2) (rng 5) (rng 4 - rng 0 * c) c hc
  rw [hc]
  constructor
  · intro h2
    have h2 := Res.ok.inj h2
    have := h.1.2 ⟨h2.symm, by module⟩
    exact (congrArg (fun x => ((Res.orErr x PVSSError.NIZKProofDoesNotVerifyError).unwrap : Tests.Outcome)) this).trans rfl
  · intro h2
    have := h.2 fun h3 => h2 (by rw [h3.1])
    exact (congrArg (fun x => ((Res.orErr x PVSSError.NIZKProofDoesNotVerifyError).unwrap : Tests.Outcome)) this).trans rfl

/-- **C101** (decomp, serialization). -/
theorem C101_decomp_serialization (S : Suite r G1 G2 K) {n1 n2 nf : ℕ} (hC : CodecLaws S n1 n2 nf) (hH : HashTotal S.hash)
    (m : Mode) (srs : SRS G1 G2) (rng : Rng r) : Returns (Tests.decompSerialization S m srs rng) (SomeCoeff rng 3) := by
  unfold Tests.decompSerialization
  rw [polyRand_ok m rng (by norm_num), Res.bind_ok']
  refine returns_head_ok ?_
  obtain ⟨d, hd⟩ := C43_total S hH (rng.drop (3 + 1)) ⟨srs, 3, 10⟩ (rng 0)
  simp only [hd, Res.unwrap_ok, Res.bind_ok']
  exact checkSerialization_ok (decompProof_lawful hC) d

/-! ## modified_scrape/pvss.rs -/

/-- **C101** (pvss). The tests of empty cores. -/
theorem C101_pvss_empty : Passes (Tests.coreEmpty G1 G2) ∧ Passes (Tests.coreEq G1 G2) ∧ Passes (Tests.coreLengths G1 G2) := by
  refine ⟨?_, check_true rfl, check_true ?_⟩
  · simp only [Passes, Tests.coreEmpty]
    rw [check_true, Res.bind_ok', check_true]
    · intro x hx
      exact List.eq_of_mem_replicate hx
    · intro x hx
      exact List.eq_of_mem_replicate hx
  · intro h
    have := congrArg (fun c : PVSSCore G1 G2 => c.encs.length) h
    simp [PVSSCore.empty] at this

/-- **C101** (pvss, `test_neq`): fails exactly when both pairs of drawn points coincide. -/
theorem C101_pvss_neq (e1 e2 : G1) (c1 c2 : G2) : Returns (Tests.coreNeq e1 e2 c1 c2) (¬ (e1 = e2 ∧ c1 = c2)) := by
  refine returns_congr returns_check ?_
  rw [ne_eq, PVSSCore.mk.injEq, List.replicate_right_injective (by norm_num : (10 : ℕ) ≠ 0) |>.eq_iff,
    List.replicate_right_injective (by norm_num : (10 : ℕ) ≠ 0) |>.eq_iff]

/-- **C101** (pvss, aggregation). -/
theorem C101_pvss_aggregation (e : G1) (c : G2) : Passes (Tests.coreAggregation e c) := by
  unfold Passes Tests.coreAggregation
  simp only [PVSSCore.aggregate, List.map_replicate, List.length_replicate, ne_eq, not_true_eq_false, if_false,
    List.zip_replicate, List.isEmpty_replicate, add_neg_cancel, min_self]
  simp only [show decide ((10 : ℕ) = 0) = false from rfl, Bool.false_eq_true, if_false, Res.unwrap_ok, Res.bind_ok']
  rw [check_true, Res.bind_ok', check_true]
  · intro x hx
    exact List.eq_of_mem_replicate hx
  · intro x hx
    exact List.eq_of_mem_replicate hx

/-- **C101** (pvss, mismatched lengths). The four tests marked `#[should_panic]` panic. -/
theorem C101_pvss_mismatch : Tests.coreMismatch G1 G2 0 10 10 10 = .panic ∧ Tests.coreMismatch G1 G2 10 0 10 10 = .panic ∧
    Tests.coreMismatch G1 G2 10 10 20 20 = .panic ∧ Tests.coreMismatch G1 G2 10 11 10 10 = .panic :=
  ⟨rfl, rfl, rfl, rfl⟩

/-- **C101** (pvss, serialization). -/
theorem C101_pvss_serialization (S : Suite r G1 G2 K) {n1 n2 nf : ℕ} (hC : CodecLaws S n1 n2 nf) (e : G1) (c : G2) :
    Passes (Tests.coreSerialization S e c) :=
  checkSerialization_on (core_lawful hC) _ ⟨by simp, by simp⟩

/-! ## modified_scrape/poly.rs -/

/-- **C101** (poly, sampling). -/
theorem C101_poly_sample (m : Mode) (deg : ℕ) (hd : deg < 100) (rng : Rng r) : Passes (Tests.samplePoly m deg rng) := by
  unfold Passes Tests.samplePoly
  rw [polyRand_ok m rng (by omega), Res.bind_ok']
  exact check_true rfl

/-- **C101** (poly, degree check of a repeated point). -/
theorem C101_poly_degree (m : Mode) (deg : ℕ) (hd : deg < 100) (hr : 103 ≤ r) (P : G2) (rng : Rng r) :
    Passes (Tests.degreeRepeated m deg P rng) := by
  unfold Passes Tests.degreeRepeated
  rw [C12_group m rng deg (List.replicate (deg + 4) P) ?_ (by simp) (by simp; omega) (by simp; omega)]
  · rfl
  · refine ⟨fun k => if k = 0 then P else 0, fun i hi => ?_⟩
    rw [List.getElem_replicate, Finset.sum_eq_single 0]
    · simp
    · intro k _ hk
      simp [hk]
    · simp

/-- **C101** (poly, too few evaluations). The three tests, and the one of different lengths, panic. -/
theorem C101_poly_insufficient (m : Mode) (deg : ℕ) (h3 : 3 ≤ deg) (hd : deg < 100) (P : G2) (x : ZMod r) (rng : Rng r) :
    Tests.degreeInsufficient m deg P rng = .panic ∧ Tests.simpleInsufficient r m deg P = .panic ∧
    Tests.g2BadLengths m deg (deg - 1) (deg - 1) P x = .panic ∧ Tests.g2BadLengths m deg (deg + 1) (deg + 2) P x = .panic := by
  refine ⟨?_, ?_, ?_, ?_⟩
  · unfold Tests.degreeInsufficient
    rw [(C14_err m rng _ deg).2 (by simp; omega)]
    rfl
  · unfold Tests.simpleInsufficient
    rw [(C10_simple (r := r) m (List.replicate (deg - 1) P) deg (by omega)).1.2 (by rw [List.length_replicate]; omega)]
    rfl
  · unfold Tests.g2BadLengths
    rw [(C10_g2 m (List.replicate (deg - 1) P) (List.replicate (deg - 1) x) deg (by omega)).1.2
      (by rw [List.length_replicate]; omega)]
    rfl
  · unfold Tests.g2BadLengths
    rw [(C10_g2 m (List.replicate (deg + 1) P) (List.replicate (deg + 2) x) deg (by omega)).2.1.2 (by simp)]
    rfl

/-- **C101** (poly, `lagrange_interpolation_simple`). -/
theorem C101_poly_simple (m : Mode) (deg : ℕ) (hd : deg < 100) (hr : 100 ≤ r) (g2 : G2) (rng : Rng r) :
    Returns (Tests.simpleReconstruct m deg g2 rng) (SomeCoeff rng deg) := by
  unfold Tests.simpleReconstruct
  rw [polyRand_ok m rng (by omega), Res.bind_ok']
  refine returns_head_ok ?_
  simp only [mulRepr_eq_smul]
  rw [C08 m (rngPoly rng (deg + 1)) deg (rngPoly_natDegree rng deg) g2 _ (by simp [range1]) (by simp [range1]; omega)
    (by simp [range1]; omega) ?_]
  · rw [Res.unwrap_ok, Res.bind_ok']
    refine check_true ?_
    rw [← Polynomial.coeff_zero_eq_eval_zero, rngPoly_coeff, if_pos (by omega)]
  · intro i hi _
    simp [range1, Spec.point, rngPoly_eval]

/-- **C101** (poly, `lagrange_interpolation_g2`). -/
theorem C101_poly_g2 (m : Mode) (deg : ℕ) (hd : deg < 100) (hr : 101 ≤ r) (g2 : G2) (rng : Rng r) :
    Returns (Tests.g2Reconstruct m deg g2 rng) (SomeCoeff rng deg) := by
  unfold Tests.g2Reconstruct
  rw [polyRand_ok m rng (by omega), Res.bind_ok']
  refine returns_head_ok ?_
  simp only [mulRepr_eq_smul]
  rw [collect_eq_map (g := fun j : ℕ => polyEval (trim ((List.range (deg + 1)).map rng)) ((j : ℕ) : ZMod r) • g2)]
  · rw [Res.bind_ok', C06_g2 m (rngPoly rng (deg + 1)) deg (rngPoly_natDegree rng deg) g2 _ _ (by simp) (by simp [range1])
      (by simp [range1]; omega) ?_ ?_]
    · rw [Res.unwrap_ok, Res.bind_ok']
      refine check_true ?_
      rw [← Polynomial.coeff_zero_eq_eval_zero, rngPoly_coeff, if_pos (by omega)]
    · refine List.Nodup.sublist (List.take_sublist _ _) ?_
      refine List.Nodup.map_on ?_ (by unfold range1; exact List.Nodup.map (fun a b h => by simpa using h) List.nodup_range)
      intro a ha b hb hab
      have ha : a ≤ deg + 1 := by simp [range1] at ha; omega
      have hb : b ≤ deg + 1 := by simp [range1] at hb; omega
      rw [ZMod.natCast_eq_natCast_iff, Nat.ModEq, Nat.mod_eq_of_lt (by omega), Nat.mod_eq_of_lt (by omega)] at hab
      exact hab
    · intro j hj _
      simp [range1, rngPoly_eval]
  · intro j hj
    have hj' : j - 1 < deg + 1 ∧ 1 ≤ j := by simp [range1] at hj; omega
    rw [idx_ok (by simp [range1]; omega), Res.bind_ok']
    simp [range1]
    congr 2
    have : (j - 1) + 1 = j := by omega
    exact_mod_cast congrArg (Nat.cast (R := ZMod r)) this

/-- **C101** (poly, reconstruction over the target group). -/
theorem C101_poly_gt (S : Suite r G1 G2 K) (m : Mode) (deg : ℕ) (hd : deg < 100) (hr : 101 ≤ r) (srs : SRS G1 G2) (rng : Rng r) :
    Passes (Tests.gtReconstruct S m deg srs rng) := by
  simp only [Passes, Tests.gtReconstruct]
  have h := C10_gt (r := r) m
    (((List.range (deg + 1)).map fun i => mulRepr srs.g1 (rng i)).map fun sk => S.pair sk srs.g2)
    ((List.range (deg + 1)).map (· + 1)) deg (by omega)
  obtain ⟨v, hv⟩ := h.2.2.2.2 ⟨by simp, by simp, by
    refine List.Nodup.map_on ?_ (List.Nodup.sublist (List.take_sublist _ _)
      (List.Nodup.map (fun a b h => by simpa using h) List.nodup_range))
    intro a ha b hb hab
    have ha : a ≤ deg + 1 := by have := List.mem_of_mem_take ha; simp at this; omega
    have hb : b ≤ deg + 1 := by have := List.mem_of_mem_take hb; simp at this; omega
    rw [ZMod.natCast_eq_natCast_iff, Nat.ModEq, Nat.mod_eq_of_lt (by omega), Nat.mod_eq_of_lt (by omega)] at hab
    exact hab⟩
  rw [hv, Res.unwrap_ok, Res.bind_ok']
  exact check_true trivial

theorem recoverAt_eq (S : Suite r G1 G2 K) (hS : PairLaws S) (m : Mode) (f : Polynomial (ZMod r)) (hf : f.natDegree ≤ 3) (g1 : G1)
    (n : ℕ) (sks : List G1) (hsk : sks = (List.range n).map fun i => f.eval (Spec.point r i) • g1) (epoch : G2)
    (points : List ℕ) (h4 : 4 ≤ points.length) (hl : points.length < 2 ^ 64) (hp : ∀ p ∈ points, 1 ≤ p ∧ p ≤ n)
    (hd : ((points.take 4).map fun p : ℕ => (p : ZMod r)).Nodup) :
    Tests.recoverAt S m sks epoch points = .ok (S.pair (f.eval 0 • g1) epoch) := by
  have hc : collect (ε := Empty) (fun j => do
      let p ← idx points j
      let sk ← idx sks (p - 1)
      .ok (S.pair sk epoch)) (List.range points.length) =
      .ok ((List.range points.length).map fun j => S.pair (f.eval ((points.getD j 0 : ℕ) : ZMod r) • g1) epoch) := by
    refine collect_eq_map fun j hj => ?_
    have hj : j < points.length := List.mem_range.1 hj
    obtain ⟨h1, h2⟩ := hp points[j] (List.getElem_mem hj)
    rw [idx_ok hj, Res.bind_ok', idx_ok (by rw [hsk]; simp; omega), Res.bind_ok', getD_lt _ hj]
    subst hsk
    simp only [List.getElem_map, List.getElem_range, Spec.point]
    have : points[j] - 1 + 1 = points[j] := by omega
    rw [this]
  unfold Tests.recoverAt
  rw [hc, Res.bind_ok', C07 m S hS f 3 hf g1 epoch _ points (by simp) (by simpa using h4) (by simpa using hl) hd ?_]
  · rfl
  · intro j hj _
    rw [List.getElem_map, List.getElem_range, getD_lt _ (by simpa using hj)]

theorem collect_panic {α β : Type} (f : α → Res Empty β) (l : List α) (hd : ∀ x ∈ l, f x ≠ .diverge) (x : α) (hx : x ∈ l)
    (h : f x = .panic) : collect f l = .panic := by
  rcases collect_cases f l with ⟨ys, h1⟩ | ⟨_, _, e, _⟩ | ⟨h1, _⟩ | ⟨_, y, hy, h2⟩
  · obtain ⟨y, hy⟩ := collect_eq_ok_mem h1 x hx
    rw [h] at hy; cases hy
  · exact e.elim
  · exact h1
  · exact absurd h2 (hd y hy)

/-- **C101** (poly, interpolation over the target group from different sets). The function panics exactly when one of the eight
drawn keys is zero. -/
theorem C101_poly_sets {E : Type} [AddCommGroup E] [DecidableEq E] (S : Suite r G1 G2 K) (hS : PairLaws S) (C : RawCurve E)
    (toG2 : E → G2) (m : Mode) (hr : 8 < r) (srs : SRS G1 G2) (key : ℕ → Rng r) (seed : ℕ → Bytes 32) (rng : Rng r) (point : E)
    (hh : (hashToGroup S.hash C (ascii "OnePiece") (2 :: List.replicate 15 0) : Res NIZKError E) = .ok point) :
    Returns (Tests.gtDifferentSets S C toG2 m srs key seed rng) (∀ i < 8, key i 0 ≠ 0) := by
  have hget : ∀ i < 8, (Tests.participants S srs 8 key seed).get i = some (Tests.dealer S srs i (key i) (seed i)).participant :=
    fun i hi => table_get S ⟨srs, 3, 8⟩ ⟨key, seed, fun _ => rng⟩ i hi
  unfold Tests.gtDifferentSets
  simp only []
  rw [polyRand_ok m rng (by norm_num), Res.bind_ok']
  simp only [mulRepr_eq_smul]
  set f := rngPoly rng (3 + 1) with hf
  have hs : ((range1 8).map fun i : ℕ => polyEval (trim ((List.range (3 + 1)).map rng)) (i : ZMod r)) =
      (List.range 8).map fun i => f.eval (Spec.point r i) := by
    simp only [range1, List.map_map, hf, rngPoly_eval]
    refine List.map_congr_left fun i _ => ?_
    simp [Spec.point]
  rw [hs, collect_eq_map (g := fun i => f.eval (Spec.point r i) • key i 0 • srs.g1), Res.bind_ok',
    collect_eq_map (g := fun i => f.eval (Spec.point r i) • srs.g2), Res.bind_ok']
  rotate_left
  · intro i hi
    have hi : i < 8 := List.mem_range.1 hi
    rw [idx_ok (by simpa using hi), Res.bind_ok']
    simp
  · intro i hi
    have hi : i < 8 := List.mem_range.1 hi
    rw [idx_ok (by simpa using hi), Res.bind_ok']
    simp only [List.getElem_map, List.getElem_range]
    have h1 : (Node.new (⟨srs, 3, 8⟩ : Config G1 G2) (Tests.dealer S srs i (key i) (seed i))
      (Tests.participants S srs 8 key seed)).aggregator.participants.get i =
        some (Tests.dealer S srs i (key i) (seed i)).participant := hget i hi
    rw [h1]
    simp only [Res.ofOption, Res.unwrap_ok, Res.bind_ok']
    rw [idx_ok (by simpa using hi), Res.bind_ok']
    simp only [List.getElem_map, List.getElem_range]
    exact congrArg (fun q => Res.ok (f.eval (Spec.point r i) • q)) (mulRepr_eq_smul _ _)
  have hgen : ∀ i < 8, (do
      let nd ← idx ((List.range 8).map fun i => Node.new (⟨srs, 3, 8⟩ : Config G1 G2) (Tests.dealer S srs i (key i) (seed i))
        (Tests.participants S srs 8 key seed)) i
      let d ← DecryptedShare.generate ((List.range 8).map fun i => f.eval (Spec.point r i) • key i 0 • srs.g1) nd.dealer.skSig
        nd.dealer.participant.id
      Res.ok (ε := Empty) d.dec) = if key i 0 = 0 then .panic else .ok (f.eval (Spec.point r i) • srs.g1) := by
    intro i hi
    rw [idx_ok (by simpa using hi), Res.bind_ok']
    simp only [List.getElem_map, List.getElem_range]
    have h5 := C05 (ε := Empty) ((List.range 8).map fun i => f.eval (Spec.point r i) • key i 0 • srs.g1) (key i 0) i
    show (DecryptedShare.generate ((List.range 8).map fun i => f.eval (Spec.point r i) • key i 0 • srs.g1) (key i 0) i >>= _) = _
    by_cases h0 : key i 0 = 0
    · rw [if_pos h0, h5.1.2 (.inr h0)]; rfl
    · rw [if_neg h0, (h5.2.1 ⟨f.eval (Spec.point r i) • srs.g1, i⟩).2 ⟨h0, rfl, by
        rw [List.getElem?_map, List.getElem?_range hi, Option.map_some, smul_comm]⟩]
      rfl
  constructor
  · intro hk
    rw [collect_eq_map (g := fun i => f.eval (Spec.point r i) • srs.g1), Res.bind_ok']
    rotate_left
    · intro i hi
      have hi : i < 8 := List.mem_range.1 hi
      rw [hgen i hi, if_neg (hk i hi)]
    rw [hh, Res.unwrap_ok, Res.bind_ok']
    have hrec := fun (points : List ℕ) h4 hl hp hd => recoverAt_eq S hS m f (rngPoly_natDegree rng 3) srs.g1 8 _ rfl (toG2 point)
      points h4 hl hp hd
    have hdist : ∀ points : List ℕ, points.Nodup → (∀ p ∈ points, 1 ≤ p ∧ p ≤ 8) →
        ((points.take 4).map fun p : ℕ => (p : ZMod r)).Nodup := by
      intro points hnd hb
      refine List.Nodup.map_on ?_ (hnd.sublist (List.take_sublist _ _))
      intro a ha b hb' hab
      have h1 := hb a (List.mem_of_mem_take ha)
      have h2 := hb b (List.mem_of_mem_take hb')
      rw [ZMod.natCast_eq_natCast_iff, Nat.ModEq, Nat.mod_eq_of_lt (by omega), Nat.mod_eq_of_lt (by omega)] at hab
      exact hab
    rw [hrec [1, 2, 3, 4] (by decide) (by decide) (by decide) (hdist _ (by decide) (by decide)), Res.bind_ok',
      hrec [5, 6, 7, 8] (by decide) (by decide) (by decide) (hdist _ (by decide) (by decide)), Res.bind_ok',
      hrec [3, 5, 1, 7] (by decide) (by decide) (by decide) (hdist _ (by decide) (by decide)), Res.bind_ok',
      hrec [1, 2, 3, 4, 5, 6, 7, 8] (by decide) (by decide) (by decide) (hdist _ (by decide) (by decide)), Res.bind_ok',
      check_true rfl, Res.bind_ok', Res.bind_ok']
  · intro hk
    push Not at hk
    obtain ⟨i, hi, h0⟩ := hk
    rw [collect_panic _ _ ?_ i (List.mem_range.2 hi) ?_]
    · rfl
    · intro j hj
      rw [hgen j (List.mem_range.1 hj)]
      split <;> simp
    · rw [hgen i hi, if_pos h0]

/-! ### Examples -/

/-- Non-vacuity of C101 (decomposition): the function returns for the draws 1, 2, 3, 4, … and panics if all draws are zero. -/
example : Tests.decompSimple (Toy.suite 13) .checked Toy.cfg.srs (fun i => (i : ZMod 13) + 1) = .ok () ∧
    Tests.decompSimple (Toy.suite 13) .checked Toy.cfg.srs (fun _ => (0 : ZMod 13)) = .panic :=
  ⟨(C101_decomp_simple _ (Toy.hashTotal 13) _ _ _).1 ⟨0, by decide, by decide⟩,
    (C101_decomp_simple _ (Toy.hashTotal 13) _ _ _).2 (by rintro ⟨k, -, h⟩; exact h rfl)⟩

/-- Two different cores. -/
example : Tests.coreNeq (1 : ZMod 13) 2 (3 : ZMod 13) 3 = .ok () := (C101_pvss_neq _ _ _ _).1 (by decide)

end Verif
