import Verif.Lemmas.Honest
import Verif.Props.Verify

/-!
# Aggregation of transcripts: C22 – C27, C29, C30, C34, C35
-/

open Finset

set_option linter.unusedSectionVars false

namespace Verif

variable {r : ℕ} [Fact r.Prime] {G1 G2 K : Type}
  [AddCommGroup G1] [DecidableEq G1] [AddCommGroup G2] [DecidableEq G2]

/-! ### C22 -/

/-- `w` is the entry-by-entry sum of `u` and `v` (all of one length). -/
def Spec.SumOf {G : Type} [Add G] (u v w : List G) : Prop :=
  w.length = u.length ∧ w.length = v.length ∧
    ∀ (i : ℕ) (x y : G), u[i]? = some x → v[i]? = some y → w[i]? = some (x + y)

theorem sumOf_iff {G : Type} [Add G] {u v w : List G} (h : u.length = v.length) :
    Spec.SumOf u v w ↔ w = (u.zip v).map fun e => e.1 + e.2 := by
  constructor
  · rintro ⟨h1, h2, h3⟩
    apply List.ext_getElem (by simp [h1, h])
    intro i hi hi'
    have := h3 i _ _ (List.getElem?_eq_getElem (by omega)) (List.getElem?_eq_getElem (by omega : i < v.length))
    rw [List.getElem?_eq_getElem hi] at this
    simpa using this
  · rintro rfl
    refine ⟨by simp [h], by simp [h], fun i x y hx hy => ?_⟩
    obtain ⟨h1, rfl⟩ := List.getElem?_eq_some_iff.1 hx
    obtain ⟨h2, rfl⟩ := List.getElem?_eq_some_iff.1 hy
    rw [List.getElem?_eq_getElem (by simp; omega)]
    simp

/-- **C22**. `PVSSCore::aggregate` succeeds exactly for non-empty commitments and agreeing lengths, with the entry-by-entry sum;
otherwise it returns the error of the first failing check. -/
theorem C22 (a b : PVSSCore G1 G2) :
    (∀ c, a.aggregate b = .ok c ↔ a.comms ≠ [] ∧ a.comms.length = b.comms.length ∧ a.encs.length = b.encs.length ∧
      a.comms.length = a.encs.length ∧ Spec.SumOf a.encs b.encs c.encs ∧ Spec.SumOf a.comms b.comms c.comms) ∧
    (a.comms = [] → a.aggregate b = .err .EmptyEncryptionsVectorError) ∧
    (a.comms ≠ [] → a.comms.length ≠ b.comms.length →
      a.aggregate b = .err (.MismatchedCommitmentsError a.comms.length b.comms.length)) ∧
    (a.comms ≠ [] → a.comms.length = b.comms.length → a.encs.length ≠ b.encs.length →
      a.aggregate b = .err (.MismatchedEncryptionsError a.encs.length b.encs.length)) ∧
    (a.comms ≠ [] → a.comms.length = b.comms.length → a.encs.length = b.encs.length → a.comms.length ≠ a.encs.length →
      a.aggregate b = .err (.MismatchedCommitmentsEncryptionsError a.comms.length b.encs.length)) ∧
    a.aggregate b ≠ .panic ∧ a.aggregate b ≠ .diverge := by
  refine ⟨fun c => ?_, fun h => ?_, fun h h1 => ?_, fun h h1 h2 => ?_, fun h h1 h2 h3 => ?_, ?_, ?_⟩
  · rw [coreAggregate_iff]
    constructor
    · rintro ⟨h1, h2, h3, h4, h5, h6⟩
      exact ⟨h1, h2, h3, h4, (sumOf_iff h3).2 h5, (sumOf_iff h2).2 h6⟩
    · rintro ⟨h1, h2, h3, h4, h5, h6⟩
      exact ⟨h1, h2, h3, h4, (sumOf_iff h3).1 h5, (sumOf_iff h2).1 h6⟩
  · simp [PVSSCore.aggregate, h]
  · simp [PVSSCore.aggregate, h, h1]
  · have : b.comms ≠ [] := fun h0 => h (List.length_eq_zero_iff.1 (by rw [h1, h0]; rfl))
    simp [PVSSCore.aggregate, h, h1, h2]
  · have h4 : b.comms.length ≠ b.encs.length := by rw [← h1, ← h2]; exact h3
    simp [PVSSCore.aggregate, h, h1, h2, h4]
  · rcases coreAggregate_cases a b with ⟨c, h⟩ | ⟨e, h⟩ <;> rw [h] <;> simp
  · rcases coreAggregate_cases a b with ⟨c, h⟩ | ⟨e, h⟩ <;> rw [h] <;> simp

/-- Non-vacuity of C22. -/
example : (⟨[1, 2], [3, 4]⟩ : PVSSCore (ZMod 13) (ZMod 13)).aggregate ⟨[5, 6], [7, 8]⟩ = .ok ⟨[6, 8], [10, 12]⟩ ∧
    (⟨[1, 2], [3, 4]⟩ : PVSSCore (ZMod 13) (ZMod 13)).aggregate ⟨[5], [7, 8]⟩ = .err (.MismatchedEncryptionsError 2 1) :=
  ⟨rfl, rfl⟩

/-! ### C23 -/

theorem coreAggregate_comm {a b c : PVSSCore G1 G2} (h : a.aggregate b = .ok c) : b.aggregate a = .ok c := by
  rw [coreAggregate_iff] at h ⊢
  obtain ⟨h1, h2, h3, h4, h5, h6⟩ := h
  refine ⟨fun h0 => h1 (List.length_eq_zero_iff.1 (by rw [h2, h0]; rfl)), h2.symm, h3.symm, by rw [← h2, ← h3, h4], ?_, ?_⟩
  · rw [h5]
    apply List.ext_getElem (by simp [h3])
    intro i hi hi'
    simp only [List.getElem_map, List.getElem_zip]
    exact add_comm _ _
  · rw [h6]
    apply List.ext_getElem (by simp [h2])
    intro i hi hi'
    simp only [List.getElem_map, List.getElem_zip]
    exact add_comm _ _

theorem coreAggregate_assoc (a b c d : PVSSCore G1 G2) :
    (a.aggregate b >>= fun u => u.aggregate c) = .ok d ↔ (b.aggregate c >>= fun u => a.aggregate u) = .ok d := by
  simp only [Res.bind_eq_ok, coreAggregate_iff]
  constructor
  · rintro ⟨u, ⟨h1, h2, h3, h4, h5, h6⟩, k1, k2, k3, k4, k5, k6⟩
    have e1 : u.comms.length = a.comms.length := by rw [h6]; simp [h2]
    have e2 : u.encs.length = a.encs.length := by rw [h5]; simp [h3]
    refine ⟨⟨(b.encs.zip c.encs).map fun e => e.1 + e.2, (b.comms.zip c.comms).map fun e => e.1 + e.2⟩,
      ⟨fun h0 => h1 (List.length_eq_zero_iff.1 (by rw [h2, h0]; rfl)), by omega, by omega, by omega, rfl, rfl⟩,
      h1, ?_, ?_, h4, ?_, ?_⟩
    · simp; omega
    · simp; omega
    · rw [k5, h5]
      apply List.ext_getElem (by simp)
      intro i hi hi'
      simp [add_assoc]
    · rw [k6, h6]
      apply List.ext_getElem (by simp)
      intro i hi hi'
      simp [add_assoc]
  · rintro ⟨u, ⟨h1, h2, h3, h4, h5, h6⟩, k1, k2, k3, k4, k5, k6⟩
    have e1 : u.comms.length = b.comms.length := by rw [h6]; simp [h2]
    have e2 : u.encs.length = b.encs.length := by rw [h5]; simp [h3]
    refine ⟨⟨(a.encs.zip b.encs).map fun e => e.1 + e.2, (a.comms.zip b.comms).map fun e => e.1 + e.2⟩,
      ⟨k1, by omega, by omega, by omega, rfl, rfl⟩, ?_, ?_, ?_, ?_, ?_, ?_⟩
    · intro h0
      apply k1
      have := congrArg List.length h0
      simp at this
      rcases this with h | h
      · exact h
      · exact absurd h h1
    · simp; omega
    · simp; omega
    · simp; omega
    · rw [k5, h5]
      apply List.ext_getElem (by simp)
      intro i hi hi'
      simp [add_assoc]
    · rw [k6, h6]
      apply List.ext_getElem (by simp)
      intro i hi hi'
      simp [add_assoc]

theorem AggShare.ext_get {a b : AggShare r G1 G2} (h1 : a.numParticipants = b.numParticipants) (h2 : a.degree = b.degree)
    (h3 : a.core = b.core) (h4 : ∀ i, a.contributions.get i = b.contributions.get i) : a = b := by
  have := BMap.ext h4
  cases a; cases b; simp_all

/-- What is public about a contribution, apart from the proof itself: `gs` and the weight. -/
def Spec.gsWeight (e : SignedProof r G2 × UInt64) : G2 × UInt64 := (e.1.decompProof.gs, e.2)

theorem mergeVal_comm {m : Mode} {x y v : Option (SignedProof r G2 × UInt64)} (h : mergeVal m x y = .ok v) :
    ∃ v', mergeVal m y x = .ok v' ∧ v.map Spec.gsWeight = v'.map Spec.gsWeight ∧
      ((∀ p w p' w', x = some (p, w) → y = some (p', w') → p = p') → v = v') := by
  cases x with
  | none =>
    rw [mergeVal_none_left] at h
    cases h
    exact ⟨_, mergeVal_none_right m _, rfl, fun _ => rfl⟩
  | some x =>
    cases y with
    | none =>
      rw [mergeVal_none_right] at h
      cases h
      exact ⟨_, mergeVal_none_left m _, rfl, fun _ => rfl⟩
    | some y =>
      obtain ⟨x, w⟩ := x
      obtain ⟨y, w'⟩ := y
      rw [mergeVal_some_ok_iff] at h
      obtain ⟨hgs, w'', hw, rfl⟩ := h
      refine ⟨some (y, w''), (mergeVal_some_ok_iff _ _ _ _ _ _).2 ⟨hgs.symm, w'', by rw [addWeight_comm]; exact hw, rfl⟩,
        by simp [Spec.gsWeight, hgs], fun hp => ?_⟩
      rw [hp x w y w' rfl rfl]

theorem aggregate_comm_aux {m : Mode} {a b c : AggShare r G1 G2} (h : a.aggregate m b = .ok c) :
    ∃ c', b.aggregate m a = .ok c' := by
  rw [aggregate_iff] at h
  obtain ⟨h1, h2, h3, h4, h5, h6, h7⟩ := h
  have : ∀ i, ∃ v, i < a.numParticipants → mergeVal m (b.contributions.get i) (a.contributions.get i) = .ok v := by
    intro i
    by_cases hi : i < a.numParticipants
    · obtain ⟨v, hv, -⟩ := mergeVal_comm (h6 i hi)
      exact ⟨v, fun _ => hv⟩
    · exact ⟨none, fun h => absurd h hi⟩
  choose v hv using this
  refine ⟨⟨b.numParticipants, b.degree, c.core,
    BMap.ofList (((List.range b.numParticipants).map fun i => (v i).map fun u => (i, u)).filterMap id)⟩,
    (aggregate_iff _ _ _ _).2 ⟨h1.symm, h2.symm, rfl, rfl, coreAggregate_comm h5, fun i hi => ?_, fun i hi => ?_⟩⟩
  · simp only
    rw [get_collected, if_pos hi, hv i (by omega)]
  · simp only
    rw [get_collected, if_neg (by omega)]

/-- **C23**. Commutativity: the two orders succeed together; the results have the same core, configuration, and per contributor
the same `gs` and weight; they are equal if common contributors carry the same proof. -/
theorem C23 (m : Mode) (a b : AggShare r G1 G2) :
    ((∃ c, a.aggregate m b = .ok c) ↔ ∃ c, b.aggregate m a = .ok c) ∧
    ∀ c c', a.aggregate m b = .ok c → b.aggregate m a = .ok c' →
      c.core = c'.core ∧ c.degree = c'.degree ∧ c.numParticipants = c'.numParticipants ∧
      (∀ i, (c.contributions.get i).map Spec.gsWeight = (c'.contributions.get i).map Spec.gsWeight) ∧
      ((∀ i x w y w', a.contributions.get i = some (x, w) → b.contributions.get i = some (y, w') → x = y) → c = c') := by
  refine ⟨⟨fun ⟨c, h⟩ => aggregate_comm_aux h, fun ⟨c, h⟩ => aggregate_comm_aux h⟩, fun c c' h h' => ?_⟩
  rw [aggregate_iff] at h h'
  obtain ⟨h1, h2, h3, h4, h5, h6, h7⟩ := h
  obtain ⟨k1, k2, k3, k4, k5, k6, k7⟩ := h'
  have hcore : c.core = c'.core := by
    have := coreAggregate_comm h5
    rw [k5] at this
    exact (Res.ok.inj this).symm
  refine ⟨hcore, by omega, by omega, fun i => ?_, fun hp => ?_⟩
  · by_cases hi : i < a.numParticipants
    · obtain ⟨v, hv, hgw, -⟩ := mergeVal_comm (h6 i hi)
      rw [k6 i (by omega)] at hv
      cases hv
      exact hgw
    · rw [h7 i (by omega), k7 i (by omega)]
  · refine AggShare.ext_get (by omega) (by omega) hcore fun i => ?_
    by_cases hi : i < a.numParticipants
    · obtain ⟨v, hv, -, heq⟩ := mergeVal_comm (h6 i hi)
      rw [k6 i (by omega)] at hv
      cases hv
      exact heq fun p w p' w' => hp i p w p' w'
    · rw [h7 i (by omega), k7 i (by omega)]

/-! ### C24 -/

theorem mergeVal_assoc (m : Mode) (x y z v : Option (SignedProof r G2 × UInt64)) :
    (mergeVal m x y >>= fun u => mergeVal m u z) = .ok v ↔ (mergeVal m y z >>= fun u => mergeVal m x u) = .ok v := by
  cases x with
  | none => simp only [mergeVal_none_left, Res.bind_ok']; cases mergeVal m y z <;> simp
  | some x =>
  cases y with
  | none => simp
  | some y =>
  cases z with
  | none => simp only [mergeVal_none_right, Res.bind_ok']; cases mergeVal m (some x) (some y) <;> simp
  | some z =>
  obtain ⟨x, w1⟩ := x
  obtain ⟨y, w2⟩ := y
  obtain ⟨z, w3⟩ := z
  have ha := addWeight_assoc (ε := PVSSError) m w1 w2 w3
  simp only [Res.bind_eq_ok] at ha ⊢
  constructor
  · rintro ⟨u, h1, h2⟩
    rw [mergeVal_some_ok_iff] at h1
    obtain ⟨h1, w, hw, rfl⟩ := h1
    rw [mergeVal_some_ok_iff] at h2
    obtain ⟨h2, w', hw', rfl⟩ := h2
    obtain ⟨w'', h3, h4⟩ := (ha w').1 ⟨w, hw, hw'⟩
    exact ⟨some (y, w''), (mergeVal_some_ok_iff _ _ _ _ _ _).2 ⟨by rw [← h1, h2], w'', h3, rfl⟩,
      (mergeVal_some_ok_iff _ _ _ _ _ _).2 ⟨h1, w', h4, rfl⟩⟩
  · rintro ⟨u, h1, h2⟩
    rw [mergeVal_some_ok_iff] at h1
    obtain ⟨h1, w, hw, rfl⟩ := h1
    rw [mergeVal_some_ok_iff] at h2
    obtain ⟨h2, w', hw', rfl⟩ := h2
    obtain ⟨w'', h3, h4⟩ := (ha w').2 ⟨w, hw, hw'⟩
    exact ⟨some (x, w''), (mergeVal_some_ok_iff _ _ _ _ _ _).2 ⟨h2, w'', h3, rfl⟩,
      (mergeVal_some_ok_iff _ _ _ _ _ _).2 ⟨by rw [h2, h1], w', h4, rfl⟩⟩

/-- Pointwise description of a successful aggregation, without the map. -/
theorem aggregate_exists {m : Mode} {a b : AggShare r G1 G2} (core : PVSSCore G1 G2) (v : ℕ → Option (SignedProof r G2 × UInt64))
    (h1 : a.degree = b.degree) (h2 : a.numParticipants = b.numParticipants) (h3 : a.core.aggregate b.core = .ok core)
    (h4 : ∀ i < a.numParticipants, mergeVal m (a.contributions.get i) (b.contributions.get i) = .ok (v i)) :
    ∃ c, a.aggregate m b = .ok c ∧ c.core = core ∧ c.degree = a.degree ∧ c.numParticipants = a.numParticipants ∧
      ∀ i, c.contributions.get i = if i < a.numParticipants then v i else none := by
  refine ⟨⟨a.numParticipants, a.degree, core,
    BMap.ofList (((List.range a.numParticipants).map fun i => (v i).map fun u => (i, u)).filterMap id)⟩,
    (aggregate_iff _ _ _ _).2 ⟨h1, h2, rfl, rfl, h3, fun i hi => ?_, fun i hi => ?_⟩, rfl, rfl, rfl, fun i => ?_⟩
  · simp only
    rw [get_collected, if_pos hi, h4 i hi]
  · simp only
    rw [get_collected, if_neg (by omega)]
  · simp only
    rw [get_collected]

/-- **C24**. Associativity, for all transcripts (well-formed or not) and all build modes. -/
theorem C24 (m : Mode) (a b c d : AggShare r G1 G2) :
    (a.aggregate m b >>= fun u => u.aggregate m c) = .ok d ↔ (b.aggregate m c >>= fun u => a.aggregate m u) = .ok d := by
  rw [Res.bind_eq_ok, Res.bind_eq_ok]
  constructor
  · rintro ⟨u, h, h'⟩
    rw [aggregate_iff] at h h'
    obtain ⟨h1, h2, h3, h4, h5, h6, h7⟩ := h
    obtain ⟨k1, k2, k3, k4, k5, k6, k7⟩ := h'
    obtain ⟨core, hc1, hc2⟩ := Res.bind_eq_ok.1 ((coreAggregate_assoc a.core b.core c.core d.core).1
      (Res.bind_eq_ok.2 ⟨u.core, h5, k5⟩))
    have hv : ∀ i, ∃ v, i < a.numParticipants → mergeVal m (b.contributions.get i) (c.contributions.get i) = .ok v ∧
        mergeVal m (a.contributions.get i) v = .ok (d.contributions.get i) := by
      intro i
      by_cases hi : i < a.numParticipants
      · obtain ⟨v, hv1, hv2⟩ := Res.bind_eq_ok.1 ((mergeVal_assoc m _ _ _ _).1
          (Res.bind_eq_ok.2 ⟨_, h6 i hi, k6 i (by omega)⟩))
        exact ⟨v, fun _ => ⟨hv1, hv2⟩⟩
      · exact ⟨none, fun h => absurd h hi⟩
    choose v hv using hv
    obtain ⟨w, e1, e2, e3, e4, e5⟩ := aggregate_exists (m := m) (a := b) (b := c) core v (by omega) (by omega) hc1
      fun i hi => (hv i (by omega)).1
    refine ⟨w, e1, (aggregate_iff _ _ _ _).2 ⟨by omega, by omega, by omega, by omega, by rw [e2]; exact hc2,
      fun i hi => ?_, fun i hi => k7 i (by omega)⟩⟩
    rw [e5, if_pos (by omega)]
    exact (hv i hi).2
  · rintro ⟨u, h, h'⟩
    rw [aggregate_iff] at h h'
    obtain ⟨h1, h2, h3, h4, h5, h6, h7⟩ := h
    obtain ⟨k1, k2, k3, k4, k5, k6, k7⟩ := h'
    obtain ⟨core, hc1, hc2⟩ := Res.bind_eq_ok.1 ((coreAggregate_assoc a.core b.core c.core d.core).2
      (Res.bind_eq_ok.2 ⟨u.core, h5, k5⟩))
    have hv : ∀ i, ∃ v, i < a.numParticipants → mergeVal m (a.contributions.get i) (b.contributions.get i) = .ok v ∧
        mergeVal m v (c.contributions.get i) = .ok (d.contributions.get i) := by
      intro i
      by_cases hi : i < a.numParticipants
      · obtain ⟨v, hv1, hv2⟩ := Res.bind_eq_ok.1 ((mergeVal_assoc m _ _ _ _).2
          (Res.bind_eq_ok.2 ⟨_, h6 i (by omega), k6 i hi⟩))
        exact ⟨v, fun _ => ⟨hv1, hv2⟩⟩
      · exact ⟨none, fun h => absurd h hi⟩
    choose v hv using hv
    obtain ⟨w, e1, e2, e3, e4, e5⟩ := aggregate_exists (m := m) (a := a) (b := b) core v (by omega) (by omega) hc1
      fun i hi => (hv i (by omega)).1
    refine ⟨w, e1, (aggregate_iff _ _ _ _).2 ⟨by omega, by omega, by omega, by omega, by rw [e2]; exact hc2,
      fun i hi => ?_, fun i hi => k7 i (by omega)⟩⟩
    rw [e5, if_pos (by omega)]
    exact (hv i (by omega)).2

/-! ### C25 -/

/-- A well-formed transcript for degree `t` and `n` parties. -/
structure Spec.WellFormed (t n : ℕ) (a : AggShare r G1 G2) : Prop where
  degree : a.degree = t
  num : a.numParticipants = n
  encs_length : a.core.encs.length = n
  comms_length : a.core.comms.length = n
  ids : ∀ i v, a.contributions.get i = some v → i < n

theorem emptyCore_left {n : ℕ} (hn : 1 ≤ n) {c : PVSSCore G1 G2} (h1 : c.encs.length = n) (h2 : c.comms.length = n) :
    (PVSSCore.empty n).aggregate c = .ok c := by
  rw [coreAggregate_iff]
  refine ⟨?_, by simp [PVSSCore.empty, h2], by simp [PVSSCore.empty, h1], by simp [PVSSCore.empty], ?_, ?_⟩
  · intro h
    have := congrArg List.length h
    simp [PVSSCore.empty] at this
    omega
  · apply List.ext_getElem (by simp [PVSSCore.empty, h1])
    intro i hi hi'
    simp [PVSSCore.empty]
  · apply List.ext_getElem (by simp [PVSSCore.empty, h2])
    intro i hi hi'
    simp [PVSSCore.empty]

/-- **C25**. The empty transcript is a two-sided identity. -/
theorem C25 (m : Mode) (t n : ℕ) (hn : 1 ≤ n) (a : AggShare r G1 G2) (ha : Spec.WellFormed t n a) :
    (AggShare.empty t n).aggregate m a = .ok a ∧ a.aggregate m (AggShare.empty t n) = .ok a := by
  have hcore := emptyCore_left hn ha.encs_length ha.comms_length
  have hget : ∀ i, (AggShare.empty t n : AggShare r G1 G2).contributions.get i = none := fun i => rfl
  have hnone : ∀ i, n ≤ i → a.contributions.get i = none := by
    intro i hi
    cases h : a.contributions.get i with
    | none => rfl
    | some v => have := ha.ids i v h; omega
  constructor
  · refine (aggregate_iff _ _ _ _).2 ⟨ha.degree.symm, ha.num.symm, ha.degree, ha.num, hcore, fun i _ => ?_, hnone⟩
    rw [hget, mergeVal_none_left]
  · refine (aggregate_iff _ _ _ _).2 ⟨ha.degree, ha.num, rfl, rfl, coreAggregate_comm hcore, fun i _ => ?_, ?_⟩
    · rw [hget, mergeVal_none_right]
    · rw [ha.num]; exact hnone

/-! ### C26 -/

/-- A share has vectors for `n` parties and a sender below `n`. -/
structure Spec.WellFormedShare (n : ℕ) (s : PVSSShare r G1 G2) : Prop where
  encs_length : s.core.encs.length = n
  comms_length : s.core.comms.length = n
  id_lt : s.participantId < n

/-- The transcript that a list of shares should give: sums, contributors, number of occurrences, first proof. -/
structure Spec.Tally (t n : ℕ) (l : List (PVSSShare r G1 G2)) (a : AggShare r G1 G2) : Prop where
  degree : a.degree = t
  num : a.numParticipants = n
  encs_length : a.core.encs.length = n
  comms_length : a.core.comms.length = n
  encs : ∀ i < n, a.core.encs[i]? = some (l.map fun s => s.core.encs.getD i 0).sum
  comms : ∀ i < n, a.core.comms[i]? = some (l.map fun s => s.core.comms.getD i 0).sum
  contribs : ∀ i, a.contributions.get i = (l.find? fun s => s.participantId = i).map fun s =>
    (s.signedProof, UInt64.ofNat (l.countP fun s => s.participantId = i))

/-- Repeated `aggregate_pvss_share` along a list. -/
def aggregateList (m : Mode) (a : AggShare r G1 G2) (l : List (PVSSShare r G1 G2)) : Res PVSSError (AggShare r G1 G2) :=
  loop (fun a s => a.aggregatePvssShare m s) a l

theorem aggregateList_append (m : Mode) (a : AggShare r G1 G2) (l l' : List (PVSSShare r G1 G2)) :
    aggregateList m a (l ++ l') = (aggregateList m a l >>= fun u => aggregateList m u l') := loop_append _ _ _ _

/-- **C26**. Aggregating a list of well-formed shares with one `gs` per dealer into the empty transcript succeeds and gives the
tally. -/
theorem C26 (m : Mode) (t n : ℕ) (hn : 1 ≤ n) (l : List (PVSSShare r G1 G2)) (hl : ∀ s ∈ l, Spec.WellFormedShare n s)
    (hgs : ∀ s ∈ l, ∀ s' ∈ l, s.participantId = s'.participantId →
      s.signedProof.decompProof.gs = s'.signedProof.decompProof.gs) (hlen : l.length < 2 ^ 64) :
    ∃ a, aggregateList m (AggShare.empty t n) l = .ok a ∧ Spec.Tally t n l a := by
  induction l using List.reverseRecOn with
  | nil =>
    refine ⟨_, rfl, rfl, rfl, by simp [AggShare.empty, PVSSCore.empty], by simp [AggShare.empty, PVSSCore.empty],
      fun i hi => ?_, fun i hi => ?_, fun i => rfl⟩
    · simp [AggShare.empty, PVSSCore.empty, hi]
    · simp [AggShare.empty, PVSSCore.empty, hi]
  | append_singleton l s ih =>
    obtain ⟨a, ha, h⟩ := ih (fun s' h' => hl s' (by simp [h'])) (fun s1 h1 s2 h2 => hgs s1 (by simp [h1]) s2 (by simp [h2]))
      (by simp at hlen; omega)
    have hs := hl s (by simp)
    rw [aggregateList_append, ha, Res.bind_ok']
    -- the entry for each id
    have hv : ∀ i, mergeVal m (a.contributions.get i) ((AggShare.ofShare a.degree a.numParticipants s).contributions.get i) =
        .ok (((l ++ [s]).find? fun s => s.participantId = i).map fun s' =>
          (s'.signedProof, UInt64.ofNat ((l ++ [s]).countP fun s => s.participantId = i))) := by
      intro i
      rw [h.contribs, get_ofShare, List.find?_append, List.countP_append]
      by_cases hi : s.participantId = i
      · rw [if_pos hi.symm]
        cases hf : l.find? fun s => s.participantId = i with
        | none =>
          have h0 : l.countP (fun s => decide (s.participantId = i)) = 0 := by
            rw [List.countP_eq_zero]
            intro x hx
            have := List.find?_eq_none.1 hf x hx
            simpa using this
          simp [h0, hi]
        | some s1 =>
          have hs1 := List.mem_of_find?_eq_some hf
          have hid1 : s1.participantId = i := by simpa using List.find?_some hf
          have hcnt : l.countP (fun s => decide (s.participantId = i)) ≤ l.length := List.countP_le_length
          simp only [Option.map_some, Option.some_or]
          rw [mergeVal_some_ok_iff]
          refine ⟨hgs s1 (by simp [hs1]) s (by simp) (by rw [hid1, hi]), _, addWeight_noOverflow m ?_, ?_⟩
          · simp only [List.length_append, List.length_singleton] at hlen
            rw [UInt64.toNat_ofNat']
            simp only [UInt64.toNat_one]
            rw [Nat.mod_eq_of_lt (by omega)]
            omega
          · simp [hi, UInt64.ofNat_add]
      · rw [if_neg (fun h => hi h.symm)]
        simp [hi]
    have hcore : a.core.aggregate (AggShare.ofShare a.degree a.numParticipants s).core = .ok
        ⟨(a.core.encs.zip s.core.encs).map fun e => e.1 + e.2, (a.core.comms.zip s.core.comms).map fun e => e.1 + e.2⟩ := by
      refine (coreAggregate_iff _ _ _).2 ⟨?_, ?_, ?_, ?_, rfl, rfl⟩
      · intro h0
        have := h.comms_length
        rw [h0] at this
        simp at this
        omega
      · simp [AggShare.ofShare, h.comms_length, hs.comms_length]
      · simp [AggShare.ofShare, h.encs_length, hs.encs_length]
      · rw [h.comms_length, h.encs_length]
    obtain ⟨c, hc1, hc2, hc3, hc4, hc5⟩ := aggregate_exists (m := m) (a := a)
      (b := AggShare.ofShare a.degree a.numParticipants s) _ _ rfl rfl hcore fun i _ => hv i
    refine ⟨c, ?_, by rw [hc3, h.degree], by rw [hc4, h.num], ?_, ?_, fun i hi => ?_, fun i hi => ?_, fun i => ?_⟩
    · show loop _ a [s] = _
      rw [loop_cons, show a.aggregatePvssShare m s = .ok c from hc1]
      rfl
    · rw [hc2]; simp [h.encs_length, hs.encs_length]
    · rw [hc2]; simp [h.comms_length, hs.comms_length]
    · have h1 : i < s.core.encs.length := by rw [hs.encs_length]; exact hi
      rw [hc2]
      simp only [List.map_append, List.sum_append, List.map_cons, List.map_nil, List.sum_cons, List.sum_nil, add_zero]
      have hz : (a.core.encs.zip s.core.encs)[i]? = some ((l.map fun s => s.core.encs.getD i 0).sum, s.core.encs.getD i 0) := by
        rw [List.getElem?_zip_eq_some]
        exact ⟨h.encs i hi, by simp [List.getD_eq_getElem?_getD, List.getElem?_eq_getElem h1]⟩
      rw [List.getElem?_map, hz]
      rfl
    · have h1 : i < s.core.comms.length := by rw [hs.comms_length]; exact hi
      rw [hc2]
      simp only [List.map_append, List.sum_append, List.map_cons, List.map_nil, List.sum_cons, List.sum_nil, add_zero]
      have hz : (a.core.comms.zip s.core.comms)[i]? = some ((l.map fun s => s.core.comms.getD i 0).sum, s.core.comms.getD i 0) := by
        rw [List.getElem?_zip_eq_some]
        exact ⟨h.comms i hi, by simp [List.getD_eq_getElem?_getD, List.getElem?_eq_getElem h1]⟩
      rw [List.getElem?_map, hz]
      rfl
    · rw [hc5]
      split
      · rfl
      · rename_i hi
        rw [h.num] at hi
        have : (l ++ [s]).find? (fun s => decide (s.participantId = i)) = none := by
          rw [List.find?_eq_none]
          intro x hx
          have := (hl x hx).id_lt
          simp only [decide_eq_true_eq]
          omega
        rw [this]
        rfl

/-- **C26** (order). Permuted lists give the same core and per contributor the same `gs` and weight. -/
theorem C26_perm (m : Mode) (t n : ℕ) (hn : 1 ≤ n) (l l' : List (PVSSShare r G1 G2)) (hp : l.Perm l')
    (hl : ∀ s ∈ l, Spec.WellFormedShare n s)
    (hgs : ∀ s ∈ l, ∀ s' ∈ l, s.participantId = s'.participantId →
      s.signedProof.decompProof.gs = s'.signedProof.decompProof.gs) (hlen : l.length < 2 ^ 64) :
    ∃ a a', aggregateList m (AggShare.empty t n) l = .ok a ∧ aggregateList m (AggShare.empty t n) l' = .ok a' ∧
      a.core = a'.core ∧ a.degree = a'.degree ∧ a.numParticipants = a'.numParticipants ∧
      ∀ i, (a.contributions.get i).map Spec.gsWeight = (a'.contributions.get i).map Spec.gsWeight := by
  obtain ⟨a, ha, h⟩ := C26 m t n hn l hl hgs hlen
  obtain ⟨a', ha', h'⟩ := C26 m t n hn l' (fun s hs => hl s (hp.mem_iff.2 hs))
    (fun s hs s' hs' => hgs s (hp.mem_iff.2 hs) s' (hp.mem_iff.2 hs')) (by rw [← hp.length_eq]; exact hlen)
  refine ⟨a, a', ha, ha', ?_, by rw [h.degree, h'.degree], by rw [h.num, h'.num], fun i => ?_⟩
  · have e1 : a.core.encs = a'.core.encs := by
      apply List.ext_getElem?
      intro i
      by_cases hi : i < n
      · rw [h.encs i hi, h'.encs i hi, (hp.map _).sum_eq]
      · rw [List.getElem?_eq_none (by rw [h.encs_length]; omega), List.getElem?_eq_none (by rw [h'.encs_length]; omega)]
    have e2 : a.core.comms = a'.core.comms := by
      apply List.ext_getElem?
      intro i
      by_cases hi : i < n
      · rw [h.comms i hi, h'.comms i hi, (hp.map _).sum_eq]
      · rw [List.getElem?_eq_none (by rw [h.comms_length]; omega), List.getElem?_eq_none (by rw [h'.comms_length]; omega)]
    cases hx : a.core; cases hy : a'.core; simp_all
  · rw [h.contribs, h'.contribs, hp.countP_eq]
    cases hf : l.find? fun s => s.participantId = i with
    | none =>
      have : l'.find? (fun s => decide (s.participantId = i)) = none := by
        rw [List.find?_eq_none] at hf ⊢
        exact fun x hx => hf x (hp.mem_iff.2 hx)
      rw [this]
    | some s =>
      cases hf' : l'.find? fun s => s.participantId = i with
      | none =>
        rw [List.find?_eq_none] at hf'
        exact absurd (List.find?_some hf) (hf' s (hp.mem_iff.1 (List.mem_of_find?_eq_some hf)))
      | some s' =>
        have h1 : s.participantId = i := by simpa using List.find?_some hf
        have h2 : s'.participantId = i := by simpa using List.find?_some hf'
        simp only [Option.map_some, Spec.gsWeight]
        rw [hgs s (List.mem_of_find?_eq_some hf) s' (hp.mem_iff.2 (List.mem_of_find?_eq_some hf')) (by rw [h1, h2])]

/-! ### C27 -/

/-- A plan of aggregations: one received share, or two transcripts merged. -/
inductive Spec.Tree (r : ℕ) (G1 G2 : Type) where
  | leaf (s : PVSSShare r G1 G2)
  | node (a b : Spec.Tree r G1 G2)

/-- The shares of a plan, from left to right. -/
def Spec.Tree.leaves : Spec.Tree r G1 G2 → List (PVSSShare r G1 G2)
  | .leaf s => [s]
  | .node a b => a.leaves ++ b.leaves

/-- Carrying out a plan: every committee starts from the empty transcript. -/
def treeEval (m : Mode) (t n : ℕ) : Spec.Tree r G1 G2 → Res PVSSError (AggShare r G1 G2)
  | .leaf s => (AggShare.empty t n).aggregatePvssShare m s
  | .node a b => do
    let x ← treeEval m t n a
    let y ← treeEval m t n b
    x.aggregate m y

theorem aggregate_config {m : Mode} {a b c : AggShare r G1 G2} (h : a.aggregate m b = .ok c) :
    c.degree = a.degree ∧ c.numParticipants = a.numParticipants :=
  ⟨((aggregate_iff _ _ _ _).1 h).2.2.1, ((aggregate_iff _ _ _ _).1 h).2.2.2.1⟩

theorem aggregate_wellFormed {m : Mode} {a b c : AggShare r G1 G2} (h : a.aggregate m b = .ok c)
    (he : a.core.encs.length = a.numParticipants) (hc : a.core.comms.length = a.numParticipants) :
    Spec.WellFormed a.degree a.numParticipants c := by
  obtain ⟨h1, h2, h3, h4, h5, h6, h7⟩ := (aggregate_iff _ _ _ _).1 h
  rw [coreAggregate_iff] at h5
  obtain ⟨k1, k2, k3, k4, k5, k6⟩ := h5
  refine ⟨h3, h4, ?_, ?_, fun i v hv => ?_⟩
  · rw [k5]; simp [← k3, he]
  · rw [k6]; simp [← k2, hc]
  · by_contra hi
    rw [h7 i (by omega)] at hv
    cases hv

theorem treeEval_wellFormed {m : Mode} {t n : ℕ} {T : Spec.Tree r G1 G2} {c : AggShare r G1 G2}
    (h : treeEval m t n T = .ok c) : Spec.WellFormed t n c := by
  induction T generalizing c with
  | leaf s => exact aggregate_wellFormed h (by simp [AggShare.empty, PVSSCore.empty]) (by simp [AggShare.empty, PVSSCore.empty])
  | node a b iha ihb =>
    simp only [treeEval, Res.bind_eq_ok] at h
    obtain ⟨x, hx, y, hy, hc⟩ := h
    have h1 := iha hx
    have := aggregate_wellFormed hc (by rw [h1.encs_length, h1.num]) (by rw [h1.comms_length, h1.num])
    rwa [h1.degree, h1.num] at this

theorem treeEval_append (m : Mode) (t n : ℕ) (hn : 1 ≤ n) (T : Spec.Tree r G1 G2) (a c : AggShare r G1 G2)
    (ha : Spec.WellFormed t n a) :
    (treeEval m t n T >>= fun y => a.aggregate m y) = .ok c ↔ aggregateList m a T.leaves = .ok c := by
  induction T generalizing a c with
  | leaf s =>
    have h1 : aggregateList m a [s] = a.aggregatePvssShare m s := by
      show loop _ a [s] = _
      rw [loop_cons]
      cases a.aggregatePvssShare m s <;> rfl
    simp only [treeEval, Spec.Tree.leaves]
    rw [h1]
    unfold AggShare.aggregatePvssShare
    have h2 := (C24 m a (AggShare.empty t n) (AggShare.ofShare t n s) c).symm
    rw [(C25 m t n hn a ha).2, Res.bind_ok'] at h2
    rw [ha.degree, ha.num]
    exact h2
  | node T1 T2 ih1 ih2 =>
    simp only [treeEval, Spec.Tree.leaves]
    rw [aggregateList_append]
    constructor
    · intro h
      simp only [Res.bind_eq_ok] at h
      obtain ⟨z, ⟨x, hx, y, hy, hz⟩, hc⟩ := h
      obtain ⟨u, hu, hc'⟩ := Res.bind_eq_ok.1 ((C24 m a x y c).2 (Res.bind_eq_ok.2 ⟨z, hz, hc⟩))
      rw [Res.bind_eq_ok]
      have hwu : Spec.WellFormed t n u := by
        have := aggregate_wellFormed hu (by rw [ha.encs_length, ha.num]) (by rw [ha.comms_length, ha.num])
        rwa [ha.degree, ha.num] at this
      exact ⟨u, (ih1 a u ha).1 (Res.bind_eq_ok.2 ⟨x, hx, hu⟩), (ih2 u c hwu).1 (Res.bind_eq_ok.2 ⟨y, hy, hc'⟩)⟩
    · intro h
      rw [Res.bind_eq_ok] at h
      obtain ⟨u, hu, hc⟩ := h
      obtain ⟨x, hx, hu⟩ := Res.bind_eq_ok.1 ((ih1 a u ha).2 hu)
      have hwu : Spec.WellFormed t n u := by
        have := aggregate_wellFormed hu (by rw [ha.encs_length, ha.num]) (by rw [ha.comms_length, ha.num])
        rwa [ha.degree, ha.num] at this
      obtain ⟨y, hy, hc⟩ := Res.bind_eq_ok.1 ((ih2 u c hwu).2 hc)
      obtain ⟨z, hz, hc⟩ := Res.bind_eq_ok.1 ((C24 m a x y c).1 (Res.bind_eq_ok.2 ⟨u, hu, hc⟩))
      simp only [Res.bind_eq_ok]
      exact ⟨z, ⟨x, hx, y, hy, hz⟩, hc⟩

theorem empty_wellFormed (t n : ℕ) : Spec.WellFormed t n (AggShare.empty t n : AggShare r G1 G2) := by
  refine ⟨rfl, rfl, by simp [AggShare.empty, PVSSCore.empty], by simp [AggShare.empty, PVSSCore.empty], fun i v h => ?_⟩
  cases h

/-- **C27**. Whatever the plan, the transcript is the one of sequential aggregation of its shares from left to right; one
succeeds iff the other does. -/
theorem C27 (m : Mode) (t n : ℕ) (hn : 1 ≤ n) (T : Spec.Tree r G1 G2) (c : AggShare r G1 G2) :
    treeEval m t n T = .ok c ↔ aggregateList m (AggShare.empty t n) T.leaves = .ok c := by
  rw [← treeEval_append m t n hn T _ c (empty_wellFormed t n), Res.bind_eq_ok]
  constructor
  · intro h
    exact ⟨c, h, (C25 m t n hn c (treeEval_wellFormed h)).1⟩
  · rintro ⟨y, hy, h⟩
    rw [(C25 m t n hn y (treeEval_wellFormed hy)).1] at h
    cases h
    exact hy

/-- **C27** (with C26). Plans over permuted shares give equal cores, weights and `gs` values. -/
theorem C27_perm (m : Mode) (t n : ℕ) (hn : 1 ≤ n) (T T' : Spec.Tree r G1 G2) (hp : T.leaves.Perm T'.leaves)
    (hl : ∀ s ∈ T.leaves, Spec.WellFormedShare n s)
    (hgs : ∀ s ∈ T.leaves, ∀ s' ∈ T.leaves, s.participantId = s'.participantId →
      s.signedProof.decompProof.gs = s'.signedProof.decompProof.gs) (hlen : T.leaves.length < 2 ^ 64) :
    ∃ a a', treeEval m t n T = .ok a ∧ treeEval m t n T' = .ok a' ∧ a.core = a'.core ∧
      ∀ i, (a.contributions.get i).map Spec.gsWeight = (a'.contributions.get i).map Spec.gsWeight := by
  obtain ⟨a, a', h1, h2, h3, -, -, h4⟩ := C26_perm m t n hn T.leaves T'.leaves hp hl hgs hlen
  exact ⟨a, a', (C27 m t n hn T a).2 h1, (C27 m t n hn T' a').2 h2, h3, h4⟩

/-! ### C29 -/

section
variable [CommMonoid K] [DecidableEq K] [Module (ZMod r) G1] [Module (ZMod r) G2]

theorem aggregate_conflict {m : Mode} {a b : AggShare r G1 G2} {i : ℕ} {x y : SignedProof r G2} {w w' : UInt64}
    (hi : i < a.numParticipants) (hx : a.contributions.get i = some (x, w)) (hy : b.contributions.get i = some (y, w'))
    (hne : x.decompProof.gs ≠ y.decompProof.gs) (c : AggShare r G1 G2) : a.aggregate m b ≠ .ok c := by
  intro h
  have := ((aggregate_iff _ _ _ _).1 h).2.2.2.2.2.1 i hi
  rw [hx, hy, mergeVal_some_ok_iff] at this
  exact hne this.1

/-- **C29** (share). A valid share of a dealer already present with another `gs` is refused with
`TranscriptDifferentCommitments`, and the aggregator is unchanged. -/
theorem C29_share (S : Suite r G1 G2 K) (hS : PairLaws S) (m : Mode) (a : Aggregator r G1 G2) (rng rng' : Rng r)
    (sh : PVSSShare r G1 G2) (hv : a.shareVerify S m rng sh = .ok rng') (x : SignedProof r G2) (w : UInt64)
    (hcfg : a.tx.numParticipants = a.config.numParticipants)
    (hx : a.tx.contributions.get sh.participantId = some (x, w))
    (hne : x.decompProof.gs ≠ sh.signedProof.decompProof.gs) :
    a.receiveShare S m rng sh = (.err .TranscriptDifferentCommitments, a) := by
  have hlt : sh.participantId < a.tx.numParticipants := by
    rw [hcfg]
    exact ((shareVerify_iff S hS m a rng rng' sh).1 hv).choose_spec.2.1
  have hofs : (AggShare.ofShare a.tx.degree a.tx.numParticipants sh).contributions.get sh.participantId =
      some (sh.signedProof, 1) := by rw [get_ofShare, if_pos rfl]
  have hagg : a.tx.aggregatePvssShare m sh = .err .TranscriptDifferentCommitments := by
    have h1 : ∀ c, a.tx.aggregatePvssShare m sh ≠ .ok c := aggregate_conflict hlt hx hofs hne
    have h2 : a.tx.aggregatePvssShare m sh ≠ .panic := by
      unfold AggShare.aggregatePvssShare AggShare.aggregate
      rw [if_neg (by simp [AggShare.ofShare])]
      intro h
      rw [Res.bind_eq_panic] at h
      rcases h with h | ⟨ys, hy, -⟩
      · rcases collect_cases (mergeAt m a.tx.contributions
          (AggShare.ofShare a.tx.degree a.tx.numParticipants sh).contributions) (List.range a.tx.numParticipants) with
          ⟨ys, h'⟩ | ⟨i, hi, e', k1, k2⟩ | ⟨k1, i, -, k2⟩ | ⟨k1, -⟩
        · rw [h'] at h; cases h
        · rw [k2] at h; cases h
        · rw [mergeAt_eq, get_ofShare] at k2
          split at k2
          · rename_i hi
            subst hi
            rw [hx] at k2
            simp [mergeVal, hne] at k2
          · rw [mergeVal_none_right] at k2
            cases k2
        · rw [k1] at h; cases h
      · obtain ⟨y, hy⟩ := collect_eq_ok_mem hy sh.participantId (by simpa using hlt)
        rw [mergeAt_eq, hx, hofs] at hy
        simp [mergeVal, hne] at hy
    have h3 : a.tx.aggregatePvssShare m sh ≠ .diverge := aggregate_ne_diverge
    cases h : a.tx.aggregatePvssShare m sh with
    | ok c => exact absurd h (h1 c)
    | panic => exact absurd h h2
    | diverge => exact absurd h h3
    | err e =>
      rcases aggregate_err h with ⟨k, -⟩ | ⟨-, -, k, -⟩
      · simp [AggShare.ofShare] at k
      · rw [k]
  simp [Aggregator.receiveShare, hv, hagg]

/-- **C29** (transcripts). Merging a transcript with another `gs` for a common contributor never succeeds; the receiving
aggregator is unchanged. -/
theorem C29_agg (S : Suite r G1 G2 K) (m : Mode) (a : Aggregator r G1 G2) (rng : Rng r)
    (ag : AggShare r G1 G2) (i : ℕ) (x y : SignedProof r G2) (w w' : UInt64) (hi : i < a.tx.numParticipants)
    (hx : a.tx.contributions.get i = some (x, w)) (hy : ag.contributions.get i = some (y, w'))
    (hne : x.decompProof.gs ≠ y.decompProof.gs) :
    (∀ c, a.tx.aggregate m ag ≠ .ok c) ∧ (a.receiveAggregatedShare S m rng ag).1 ≠ .ok () ∧
      (a.receiveAggregatedShare S m rng ag).2 = a := by
  have h1 := aggregate_conflict (m := m) hi hx hy hne
  have h2 : (a.receiveAggregatedShare S m rng ag).1 ≠ .ok () := by
    intro h
    have h3 : a.receiveAggregatedShare S m rng ag = (.ok (), (a.receiveAggregatedShare S m rng ag).2) :=
      Prod.ext h rfl
    rw [receiveAgg_ok_iff] at h3
    obtain ⟨_, tx, _, h4, _⟩ := h3
    exact h1 tx h4
  exact ⟨h1, h2, (C19 S m a (.agg rng ag)).1 h2⟩

end

/-! ### C30 -/

/-- **C30**. Different configurations are refused, with the four values, whatever else the transcripts contain. -/
theorem C30 (m : Mode) (a b : AggShare r G1 G2)
    (h : a.degree ≠ b.degree ∨ a.numParticipants ≠ b.numParticipants) :
    a.aggregate m b = .err (.TranscriptDifferentConfig a.degree b.degree a.numParticipants b.numParticipants) := by
  unfold AggShare.aggregate
  rw [if_pos h]

/-- Non-vacuity of C30, and the converse: with equal configurations this error does not occur. -/
example : (AggShare.empty 1 4 : AggShare 13 (ZMod 13) (ZMod 13)).aggregate .checked (AggShare.empty 2 4) =
    .err (.TranscriptDifferentConfig 1 2 4 4) := rfl

/-- **C30** (converse). -/
theorem C30_conv (m : Mode) (a b : AggShare r G1 G2) (d1 d2 n1 n2 : ℕ)
    (h : a.aggregate m b = .err (.TranscriptDifferentConfig d1 d2 n1 n2)) :
    (a.degree ≠ b.degree ∨ a.numParticipants ≠ b.numParticipants) ∧
      d1 = a.degree ∧ d2 = b.degree ∧ n1 = a.numParticipants ∧ n2 = b.numParticipants := by
  rcases aggregate_err h with ⟨h1, h2⟩ | ⟨-, -, h2, -⟩
  · cases h2
    exact ⟨h1, rfl, rfl, rfl, rfl⟩
  · cases h2

/-! ### C34 -/

/-- **C34** (weights). Checked builds panic exactly on overflow; unchecked builds wrap modulo `2^64`; without overflow all build
modes return the sum. -/
theorem C34_weight {ε : Type} (w1 w2 : UInt64) :
    ((addWeight .checked w1 w2 : Res ε _) = .panic ↔ 2 ^ 64 ≤ w1.toNat + w2.toNat) ∧
    (∀ m, m ≠ .checked → ∃ w, (addWeight m w1 w2 : Res ε _) = .ok w ∧ w.toNat = (w1.toNat + w2.toNat) % 2 ^ 64) ∧
    (w1.toNat + w2.toNat < 2 ^ 64 → ∀ m, ∃ w, (addWeight m w1 w2 : Res ε _) = .ok w ∧ w.toNat = w1.toNat + w2.toNat) := by
  refine ⟨⟨fun h => ?_, addWeight_overflow_checked⟩, fun m hm => ⟨w1 + w2, addWeight_unchecked hm w1 w2, UInt64.toNat_add _ _⟩,
    fun h m => ⟨w1 + w2, addWeight_noOverflow m h, toNat_add_of_lt h⟩⟩
  by_contra hlt
  rw [addWeight_noOverflow _ (by omega)] at h
  cases h

theorem mergeVal_checked {x y v : Option (SignedProof r G2 × UInt64)} (h : mergeVal .checked x y = .ok v) (m : Mode) :
    mergeVal m x y = .ok v := by
  cases x with
  | none => simpa using h
  | some x =>
  cases y with
  | none => simpa using h
  | some y =>
  obtain ⟨x, w⟩ := x
  obtain ⟨y, w'⟩ := y
  rw [mergeVal_some_ok_iff] at h ⊢
  obtain ⟨h1, w'', h2, h3⟩ := h
  rw [addWeight_checked_iff] at h2
  exact ⟨h1, w'', by rw [addWeight_noOverflow m h2.1, h2.2], h3⟩

/-- **C34** (modes). When the checked build succeeds, every build gives the identical transcript. -/
theorem C34_modes (a b c : AggShare r G1 G2) (h : a.aggregate .checked b = .ok c) (m : Mode) : a.aggregate m b = .ok c := by
  rw [aggregate_iff] at h ⊢
  obtain ⟨h1, h2, h3, h4, h5, h6, h7⟩ := h
  exact ⟨h1, h2, h3, h4, h5, fun i hi => mergeVal_checked (h6 i hi) m, h7⟩

/-- **C34** (checked builds refuse overflow). -/
theorem C34_checked (a b c : AggShare r G1 G2) (h : a.aggregate .checked b = .ok c) (i : ℕ) (hi : i < a.numParticipants)
    (x y : SignedProof r G2) (w w' : UInt64) (hx : a.contributions.get i = some (x, w))
    (hy : b.contributions.get i = some (y, w')) : w.toNat + w'.toNat < 2 ^ 64 := by
  have := ((aggregate_iff _ _ _ _).1 h).2.2.2.2.2.1 i hi
  rw [hx, hy, mergeVal_some_ok_iff] at this
  obtain ⟨-, w'', h2, -⟩ := this
  exact (addWeight_checked_iff.1 h2).1

section
variable [Module (ZMod r) G1] [Module (ZMod r) G2]

/-- The weighted `gs` of an optional entry. -/
def entryGs (e : Option (SignedProof r G2 × UInt64)) : G2 :=
  e.elim 0 fun v => ((v.2.toNat : ℕ) : ZMod r) • v.1.decompProof.gs

theorem weightedGs_eq (c : BMap (SignedProof r G2 × UInt64)) {n : ℕ} (h : ∀ i v, c.get i = some v → i < n) :
    Spec.weightedGs c = ∑ i ∈ range n, entryGs (c.get i) := by
  unfold Spec.weightedGs entryGs
  exact sum_entries (fun _ v => ((v.2.toNat : ℕ) : ZMod r) • v.1.decompProof.gs) c h

/-- The amount lost by wrap-around for one contributor: `2^64 • gs` if the weights overflow. -/
def lostGs (x y : Option (SignedProof r G2 × UInt64)) : G2 :=
  match x, y with
  | some (p, w), some (_, w') => if 2 ^ 64 ≤ w.toNat + w'.toNat then ((2 ^ 64 : ℕ) : ZMod r) • p.decompProof.gs else 0
  | _, _ => 0

theorem entryGs_merge {m : Mode} {x y v : Option (SignedProof r G2 × UInt64)} (h : mergeVal m x y = .ok v) :
    entryGs v + lostGs x y = entryGs x + entryGs y := by
  cases x with
  | none => simp at h; subst h; simp [entryGs, lostGs]
  | some x =>
  cases y with
  | none => simp at h; subst h; simp [entryGs, lostGs]
  | some y =>
  obtain ⟨x, w⟩ := x
  obtain ⟨y, w'⟩ := y
  rw [mergeVal_some_ok_iff] at h
  obtain ⟨h1, w'', h2, rfl⟩ := h
  have hw := addWeight_ok_eq h2
  simp only [entryGs, lostGs, Option.elim_some]
  rw [← h1, ← add_smul, hw, UInt64.toNat_add]
  have hb1 := w.toNat_lt
  have hb2 := w'.toNat_lt
  split
  · rename_i ho
    rw [← add_smul]
    congr 1
    rw [← Nat.cast_add, ← Nat.cast_add]
    congr 1
    omega
  · rw [add_zero, Nat.mod_eq_of_lt (by omega), Nat.cast_add]

/-- **C34** (consequence of wrapping). In any build, the weighted sum of the result falls short of the sum of the two inputs by
exactly `2^64 • gs` for every contributor whose weights overflowed (ids below `n` only). -/
theorem C34_lost (m : Mode) (a b c : AggShare r G1 G2) (h : a.aggregate m b = .ok c)
    (ha : ∀ i v, a.contributions.get i = some v → i < a.numParticipants)
    (hb : ∀ i v, b.contributions.get i = some v → i < a.numParticipants) :
    Spec.weightedGs c.contributions + ∑ i ∈ range a.numParticipants, lostGs (a.contributions.get i) (b.contributions.get i) =
      Spec.weightedGs a.contributions + Spec.weightedGs b.contributions := by
  obtain ⟨-, -, -, -, -, h6, h7⟩ := (aggregate_iff _ _ _ _).1 h
  rw [weightedGs_eq a.contributions ha, weightedGs_eq b.contributions hb,
    weightedGs_eq c.contributions (n := a.numParticipants), ← sum_add_distrib, ← sum_add_distrib]
  · exact sum_congr rfl fun i hi => entryGs_merge (h6 i (by simpa using hi))
  · intro i v hv
    by_contra hi
    rw [h7 i (by omega)] at hv
    cases hv

/-- The weighted sums add up when no weight overflows. -/
theorem weightedGs_add {m : Mode} {a b c : AggShare r G1 G2} (h : a.aggregate m b = .ok c)
    (ha : ∀ i v, a.contributions.get i = some v → i < a.numParticipants)
    (hb : ∀ i v, b.contributions.get i = some v → i < a.numParticipants)
    (hov : ∀ i x w y w', a.contributions.get i = some (x, w) → b.contributions.get i = some (y, w') →
      w.toNat + w'.toNat < 2 ^ 64) :
    Spec.weightedGs c.contributions = Spec.weightedGs a.contributions + Spec.weightedGs b.contributions := by
  rw [← C34_lost m a b c h ha hb, sum_eq_zero, add_zero]
  intro i _
  unfold lostGs
  split
  · rename_i x w y w' hx hy
    rw [if_neg (by have := hov i x w y w' hx hy; omega)]
  · rfl

end

/-! ### C35 -/

/-- The claim of C35. -/
def C35_claim (r : ℕ) [Fact r.Prime] (G1 G2 : Type) [AddCommGroup G1] [DecidableEq G1] [AddCommGroup G2] [DecidableEq G2]
    (m : Mode) : Prop :=
  ∀ a b c : AggShare r G1 G2, a.aggregate m b = .ok c →
    ∀ i, (a.contributions.get i ≠ none ∨ b.contributions.get i ≠ none) → c.contributions.get i ≠ none

/-- **C35** (what is dropped). A successful aggregation drops every contributor with an id at or above `num_participants`. -/
theorem C35_drop (m : Mode) (a b c : AggShare r G1 G2) (h : a.aggregate m b = .ok c) (i : ℕ) (hi : a.numParticipants ≤ i) :
    c.contributions.get i = none := ((aggregate_iff _ _ _ _).1 h).2.2.2.2.2.2 i hi

/-- A transcript for 2 parties naming contributor 5. -/
def Toy.outOfRange : AggShare 13 (ZMod 13) (ZMod 13) :=
  ⟨2, 1, ⟨[1, 2], [3, 4]⟩, BMap.ofList [(5, (⟨⟨(0, 0, 0), 7⟩, ⟨Toy.pad32 [], Toy.pad32 []⟩⟩, 1))]⟩

/-- **C35** is false. -/
theorem C35_false : ¬ C35_claim 13 (ZMod 13) (ZMod 13) .checked := by
  intro h
  have h1 : Toy.outOfRange.aggregate .checked Toy.outOfRange = .ok ⟨2, 1, ⟨[2, 4], [6, 8]⟩, BMap.empty⟩ := by
    rw [aggregate_iff]
    refine ⟨rfl, rfl, rfl, rfl, rfl, fun i hi => ?_, fun i _ => rfl⟩
    match i, hi with
    | 0, _ => rfl
    | 1, _ => rfl
  exact h _ _ _ h1 5 (Or.inl (by intro h; cases h)) rfl

/-- **C35** (proved part): contributors with ids below `num_participants` are kept, with their `gs`, the first proof and the sum of
the weights (modulo `2^64`). -/
theorem C35_partial (m : Mode) (a b c : AggShare r G1 G2) (h : a.aggregate m b = .ok c) (i : ℕ) (hi : i < a.numParticipants) :
    (∀ x w, a.contributions.get i = some (x, w) → b.contributions.get i = none → c.contributions.get i = some (x, w)) ∧
    (∀ y w, a.contributions.get i = none → b.contributions.get i = some (y, w) → c.contributions.get i = some (y, w)) ∧
    (∀ x w y w', a.contributions.get i = some (x, w) → b.contributions.get i = some (y, w') →
      x.decompProof.gs = y.decompProof.gs ∧ c.contributions.get i = some (x, w + w')) ∧
    (a.contributions.get i = none → b.contributions.get i = none → c.contributions.get i = none) := by
  have h6 := ((aggregate_iff _ _ _ _).1 h).2.2.2.2.2.1 i hi
  refine ⟨fun x w hx hy => ?_, fun y w hx hy => ?_, fun x w y w' hx hy => ?_, fun hx hy => ?_⟩
  · rw [hx, hy, mergeVal_none_right] at h6; exact (Res.ok.inj h6).symm
  · rw [hx, hy, mergeVal_none_left] at h6; exact (Res.ok.inj h6).symm
  · rw [hx, hy, mergeVal_some_ok_iff] at h6
    obtain ⟨h1, w'', h2, h3⟩ := h6
    exact ⟨h1, by rw [h3, addWeight_ok_eq h2]⟩
  · rw [hx, hy, mergeVal_none_right] at h6; exact (Res.ok.inj h6).symm

/-! ### concrete cases -/

namespace Toy

/-- A signed proof with a given `gs` (its validity does not matter for aggregation). -/
def sp (gs : ZMod 13) (tag : UInt8) : SignedProof 13 (ZMod 13) := ⟨⟨(0, 0, 0), gs⟩, ⟨pad32 [tag], pad32 []⟩⟩

def shA : PVSSShare 13 (ZMod 13) (ZMod 13) := ⟨0, ⟨[1, 2], [3, 4]⟩, sp 5 1⟩
def shB : PVSSShare 13 (ZMod 13) (ZMod 13) := ⟨1, ⟨[6, 7], [8, 9]⟩, sp 6 2⟩
def shA' : PVSSShare 13 (ZMod 13) (ZMod 13) := ⟨0, ⟨[5, 5], [5, 5]⟩, sp 5 3⟩

end Toy

/-- Non-vacuity of C23, C24, C26, C27: three shares of two dealers, in two plans. The hypotheses of C26 hold. -/
example : (∀ s ∈ [Toy.shA, Toy.shB, Toy.shA'], Spec.WellFormedShare 2 s) ∧
    (∀ s ∈ [Toy.shA, Toy.shB, Toy.shA'], ∀ s' ∈ [Toy.shA, Toy.shB, Toy.shA'], s.participantId = s'.participantId →
      s.signedProof.decompProof.gs = s'.signedProof.decompProof.gs) ∧
    ∃ a, treeEval .checked 1 2 (.node (.leaf Toy.shA) (.node (.leaf Toy.shB) (.leaf Toy.shA'))) = .ok a ∧
      a.core = ⟨[12, 14], [16, 18]⟩ ∧ a.contributions.get 0 = some (Toy.sp 5 1, 2) := by
  have h1 : ∀ s ∈ [Toy.shA, Toy.shB, Toy.shA'], Spec.WellFormedShare 2 s := by
    intro s hs
    simp only [List.mem_cons, List.not_mem_nil, or_false] at hs
    rcases hs with rfl | rfl | rfl <;> exact ⟨rfl, rfl, by decide⟩
  have h2 : ∀ s ∈ [Toy.shA, Toy.shB, Toy.shA'], ∀ s' ∈ [Toy.shA, Toy.shB, Toy.shA'], s.participantId = s'.participantId →
      s.signedProof.decompProof.gs = s'.signedProof.decompProof.gs := by decide
  obtain ⟨a, ha, ht⟩ := C26 .checked 1 2 (by decide) _ h1 h2 (by decide)
  refine ⟨h1, h2, a, (C27 .checked 1 2 (by decide) _ a).2 ha, ?_, ?_⟩
  · have e0 := ht.encs 0 (by decide)
    have e1 := ht.encs 1 (by decide)
    have c0 := ht.comms 0 (by decide)
    have c1 := ht.comms 1 (by decide)
    have l1 := ht.encs_length
    have l2 := ht.comms_length
    obtain ⟨n, d, ⟨encs, comms⟩, cs⟩ := a
    simp only at e0 e1 c0 c1 l1 l2
    match encs, l1, comms, l2 with
    | [x, y], _, [z, w], _ =>
      simp only [List.getElem?_cons_zero, List.getElem?_cons_succ, Option.some.injEq] at e0 e1 c0 c1
      subst e0 e1 c0 c1
      show (⟨_, _⟩ : PVSSCore (ZMod 13) (ZMod 13)) = _
      decide
  · rw [ht.contribs]
    decide

/-- Non-vacuity of C25, C34_modes, C35_partial: a successful aggregation with a common contributor. -/
example : ∃ c, (AggShare.ofShare 1 2 Toy.shA).aggregate .checked (AggShare.ofShare 1 2 Toy.shA') = .ok c ∧
    c.contributions.get 0 = some (Toy.sp 5 1, 2) := by
  obtain ⟨c, h1, -, -, -, h5⟩ := aggregate_exists (m := .checked) (a := AggShare.ofShare 1 2 Toy.shA)
    (b := AggShare.ofShare 1 2 Toy.shA') ⟨[6, 7], [8, 9]⟩ (fun i => if i = 0 then some (Toy.sp 5 1, 2) else none)
    rfl rfl rfl (fun i hi => by
      have hi' : i < 2 := hi
      match i, hi' with
      | 0, _ => rfl
      | 1, _ => rfl)
  exact ⟨c, h1, by rw [h5]; rfl⟩

/-- Non-vacuity of C34_weight and C34_lost: an overflow exists, with and without checks. -/
example : (addWeight .checked (UInt64.ofNat (2 ^ 64 - 1)) 1 : Res PVSSError _) = .panic ∧
    (addWeight .wrapping (UInt64.ofNat (2 ^ 64 - 1)) 1 : Res PVSSError _) = .ok 0 := ⟨rfl, rfl⟩

/-- Non-vacuity of C29: a conflicting pair. -/
example : ∀ c, (AggShare.ofShare 1 2 Toy.shA).aggregate .checked (AggShare.ofShare 1 2 { Toy.shA' with signedProof := Toy.sp 6 3 }) ≠ .ok c :=
  aggregate_conflict (i := 0) (x := Toy.sp 5 1) (y := Toy.sp 6 3) (w := 1) (w' := 1) (by decide) rfl rfl (by decide)

end Verif
