import Verif.Props.TestsPvss

/-!
# The unit tests of shares and nodes pass (C101, continued)
-/

namespace Verif

set_option linter.unusedSectionVars false

open Spec

variable {r : ℕ} [Fact r.Prime] {G1 G2 K : Type} [AddCommGroup G1] [DecidableEq G1] [Module (ZMod r) G1]
  [AddCommGroup G2] [DecidableEq G2] [Module (ZMod r) G2] [CommMonoid K] [DecidableEq K]

/-! ## modified_scrape/share.rs -/

theorem signature_new_ok {ε : Type} {ed : EdOps} (hE : EdLaws ed) (d : Digest) (seed : Bytes 32) :
    ∃ sig : Signature, (Signature.new ed d (generateKeypair ed seed).2 : Res ε _) = .ok sig := by
  obtain ⟨sig, h, -⟩ := C58_sign (ε := ε) ed hE seed d
  exact ⟨sig, h⟩

/-- **C101** (share, signed proof). -/
theorem C101_share_signed (S : Suite r G1 G2 K) (hE : EdLaws S.ed) (hH : HashTotal S.hash) (srs : SRS G1 G2) (seed : Bytes 32)
    (rng : Rng r) : Passes (Tests.signedProof S srs seed rng) := by
  obtain ⟨d, hd⟩ := C43_total S hH rng ⟨srs, 3, 10⟩ 10
  have hv := (C43 S _ _ _ _ _ hd).2
  obtain ⟨sig, hs, hsv, -⟩ := C58_sign (ε := Empty) S.ed hE seed (d.digest S)
  simp only [Passes, Tests.signedProof, hd, Res.unwrap_ok, Res.bind_ok', hs, SignedProof.verify, hv, hsv]

/-- **C101** (share, empty transcript). -/
theorem C101_share_empty : Passes (Tests.emptyAggregated r G1 G2) := check_true rfl

theorem makeShare_ok (S : Suite r G1 G2 K) (hE : EdLaws S.ed) (hH : HashTotal S.hash) (m : Mode) (srs : SRS G1 G2) (id : ℕ)
    (pks : List G1) (hp : pks.length = 10) (seed : Bytes 32) (rng : Rng r) (h : SomeCoeff rng 3) :
    ∃ sh, Tests.makeShare S m ⟨srs, 3, 10⟩ id pks seed rng = .ok sh ∧ sh.participantId = id ∧ sh.core.encs.length = 10 ∧
      sh.core.comms.length = 10 := by
  obtain ⟨d, hd⟩ := C43_total S hH (rng.drop (3 + 1)) ⟨srs, 3, 10⟩ (rng 0)
  obtain ⟨sig, hs⟩ := signature_new_ok (ε := Empty) hE (d.digest S) seed
  unfold Tests.makeShare
  rw [polyRand_ok m rng (by norm_num), Res.bind_ok']
  simp only [idx_head_ok h, Res.bind_ok', hd, Res.unwrap_ok, hs]
  rw [collect_eq_map (g := fun j => mulRepr srs.g2 (polyEval (trim ((List.range (3 + 1)).map rng)) ((j + 1 : ℕ) : ZMod r))),
    Res.bind_ok', collect_eq_map (g := fun j => mulRepr (pks.getD j 0) (polyEval (trim ((List.range (3 + 1)).map rng)) ((j + 1 : ℕ) : ZMod r))),
    Res.bind_ok']
  · exact ⟨_, rfl, rfl, by simp, by simp⟩
  · intro j hj
    have hj : j < 10 := List.mem_range.1 hj
    rw [idx_ok (by omega), Res.bind_ok', idx_ok (by simp [range1]; omega), Res.bind_ok', getD_lt _ (by omega)]
    simp [range1]
  · intro j hj
    have hj : j < 10 := List.mem_range.1 hj
    rw [idx_ok (by simp [range1]; omega), Res.bind_ok']
    simp [range1]

theorem makeShare_panic (S : Suite r G1 G2 K) (m : Mode) (srs : SRS G1 G2) (id : ℕ)
    (pks : List G1) (seed : Bytes 32) (rng : Rng r) (h : ¬ SomeCoeff rng 3) :
    Tests.makeShare S m ⟨srs, 3, 10⟩ id pks seed rng = .panic := by
  unfold Tests.makeShare
  rw [polyRand_ok m rng (by norm_num), Res.bind_ok']
  simp only [idx_head_panic h]
  rfl

theorem aggregate_first (m : Mode) (sh : PVSSShare r G1 G2) (hid : sh.participantId < 10) (he : sh.core.encs.length = 10)
    (hc : sh.core.comms.length = 10) :
    (AggShare.empty 3 10 : AggShare r G1 G2).aggregatePvssShare m sh = .ok ⟨10, 3, sh.core, BMap.empty.insert sh.participantId (sh.signedProof, 1)⟩ := by
  refine (C25 m 3 10 (by norm_num) _ ⟨rfl, rfl, he, hc, fun i v hv => ?_⟩).1
  have := get_ofShare 3 10 sh i
  have hv : (AggShare.ofShare 3 10 sh).contributions.get i = some v := hv
  rw [this] at hv
  split at hv
  · omega
  · cases hv

/-- **C101** (share, creation). All tests of shares panic exactly when all coefficients of a drawn polynomial are zero. -/
theorem C101_share_create (S : Suite r G1 G2 K) (hE : EdLaws S.ed) (hH : HashTotal S.hash) (m : Mode) (srs : SRS G1 G2) (P : G1)
    (key : Rng r) (seed : Bytes 32) (rng : Rng r) : Returns (Tests.createShare S m srs P key seed rng) (SomeCoeff rng 3) := by
  constructor
  · intro h
    obtain ⟨sh, h1, -⟩ := makeShare_ok S hE hH m srs 5 (Tests.keysOne S P key) (by simp [Tests.keysOne]) seed rng h
    simp only [Tests.createShare, h1, Res.bind_ok']
  · intro h
    simp only [Tests.createShare, makeShare_panic S m srs 5 _ seed rng h]
    rfl

/-- **C101** (share, aggregation of one share). -/
theorem C101_share_one (S : Suite r G1 G2 K) (hE : EdLaws S.ed) (hH : HashTotal S.hash) (m : Mode) (srs : SRS G1 G2) (P : G1)
    (key : Rng r) (seed : Bytes 32) (rng : Rng r) : Returns (Tests.aggregateOne S m srs P key seed rng) (SomeCoeff rng 3) := by
  constructor
  · intro h
    obtain ⟨sh, h1, h2, h3, h4⟩ := makeShare_ok S hE hH m srs 5 (Tests.keysOne S P key) (by simp [Tests.keysOne]) seed rng h
    simp only [Tests.aggregateOne, h1, Res.bind_ok', aggregate_first m sh (by omega) h3 h4, Res.unwrap_ok]
    exact check_true (by rw [h2])
  · intro h
    simp only [Tests.aggregateOne, makeShare_panic S m srs 5 _ seed rng h]
    rfl

theorem aggregate_second (m : Mode) (shA shB : PVSSShare r G1 G2) (hB : shB.participantId = 3)
    (heA : shA.core.encs.length = 10) (hcA : shA.core.comms.length = 10) (heB : shB.core.encs.length = 10)
    (hcB : shB.core.comms.length = 10) : ∃ core : PVSSCore G1 G2, shA.core.aggregate shB.core = .ok core ∧
      core.encs.length = 10 ∧ core.comms.length = 10 ∧
      (⟨10, 3, shA.core, BMap.empty.insert 2 (shA.signedProof, 1)⟩ : AggShare r G1 G2).aggregatePvssShare m shB =
        .ok ⟨10, 3, core, (BMap.empty.insert 2 (shA.signedProof, 1)).insert 3 (shB.signedProof, 1)⟩ := by
  have hcore : shA.core.aggregate shB.core = .ok ⟨(shA.core.encs.zip shB.core.encs).map fun e => e.1 + e.2,
      (shA.core.comms.zip shB.core.comms).map fun e => e.1 + e.2⟩ :=
    (coreAggregate_iff _ _ _).2 ⟨fun h => by simp [h] at hcA, by omega, by omega, by omega, rfl, rfl⟩
  refine ⟨_, hcore, by simp [heA, heB], by simp [hcA, hcB], ?_⟩
  refine (aggregate_iff _ _ _ _).2 ⟨rfl, rfl, rfl, rfl, hcore, fun i hi => ?_, fun i hi => ?_⟩
  · rw [get_ofShare, hB]
    simp only [BMap.get_insert, BMap.get_empty]
    by_cases h3 : i = 3
    · subst h3; rfl
    · rw [if_neg h3, if_neg h3, mergeVal_none_right]
  · have : 10 ≤ i := hi
    simp only [BMap.get_insert, BMap.get_empty]
    rw [if_neg (by omega), if_neg (by omega)]

/-- **C101** (share, aggregation of two shares). -/
theorem C101_share_two (S : Suite r G1 G2 K) (hE : EdLaws S.ed) (hH : HashTotal S.hash) (m : Mode) (srs : SRS G1 G2) (P : G1)
    (keyA keyB : Rng r) (seedA seedB : Bytes 32) (rngA rngB : Rng r) :
    Returns (Tests.aggregateTwo S m srs P keyA keyB seedA seedB rngA rngB) (SomeCoeff rngA 3 ∧ SomeCoeff rngB 3) := by
  have hl : (Tests.keysTwo S P keyA keyB).length = 10 := by simp [Tests.keysTwo]
  by_cases hA : SomeCoeff rngA 3
  · obtain ⟨shA, a1, a2, a3, a4⟩ := makeShare_ok S hE hH m srs 2 _ hl seedA rngA hA
    by_cases hB : SomeCoeff rngB 3
    · refine ⟨fun _ => ?_, fun h => absurd ⟨hA, hB⟩ h⟩
      obtain ⟨shB, b1, b2, b3, b4⟩ := makeShare_ok S hE hH m srs 3 _ hl seedB rngB hB
      obtain ⟨core, k1, k2, k3, k4⟩ := aggregate_second m shA shB b2 a3 a4 b3 b4
      simp only [Tests.aggregateTwo, a1, b1, Res.bind_ok', aggregate_first m shA (by omega) a3 a4, a2, Res.unwrap_ok, k4,
        emptyCore_left (by norm_num) a3 a4, k1]
      exact check_true trivial
    · refine ⟨fun h => absurd h.2 hB, fun _ => ?_⟩
      simp only [Tests.aggregateTwo, a1, Res.bind_ok', makeShare_panic S m srs 3 _ seedB rngB hB]
      rfl
  · refine ⟨fun h => absurd h.1 hA, fun _ => ?_⟩
    simp only [Tests.aggregateTwo, makeShare_panic S m srs 2 _ seedA rngA hA]
    rfl

/-- **C101** (share, serialization). -/
theorem C101_share_serialization (S : Suite r G1 G2 K) {n1 n2 nf : ℕ} (hC : CodecLaws S n1 n2 nf) (hE : EdLaws S.ed)
    (hH : HashTotal S.hash) (m : Mode) (srs : SRS G1 G2) (P : G1) (key : Rng r) (seed : Bytes 32) (rng : Rng r) :
    Returns (Tests.shareSerialization S m srs P key seed rng) (SomeCoeff rng 3) := by
  constructor
  · intro h
    obtain ⟨sh, h1, h2, h3, h4⟩ := makeShare_ok S hE hH m srs 5 (Tests.keysOne S P key) (by simp [Tests.keysOne]) seed rng h
    simp only [Tests.shareSerialization, h1, Res.bind_ok']
    exact checkSerialization_on (pvssShare_lawful hC) sh ⟨by omega, by omega, by omega⟩
  · intro h
    simp only [Tests.shareSerialization, makeShare_panic S m srs 5 _ seed rng h]
    rfl

/-- **C101** (share, serialization of an aggregated share). -/
theorem C101_share_agg_serialization (S : Suite r G1 G2 K) {n1 n2 nf : ℕ} (hC : CodecLaws S n1 n2 nf) (hE : EdLaws S.ed)
    (hH : HashTotal S.hash) (m : Mode) (srs : SRS G1 G2) (P : G1) (keyA keyB : Rng r) (seedA seedB : Bytes 32) (rngA rngB : Rng r) :
    Returns (Tests.aggregatedSerialization S m srs P keyA keyB seedA seedB rngA rngB) (SomeCoeff rngA 3 ∧ SomeCoeff rngB 3) := by
  have hl : (Tests.keysTwo S P keyA keyB).length = 10 := by simp [Tests.keysTwo]
  by_cases hA : SomeCoeff rngA 3
  · obtain ⟨shA, a1, a2, a3, a4⟩ := makeShare_ok S hE hH m srs 2 _ hl seedA rngA hA
    by_cases hB : SomeCoeff rngB 3
    · refine ⟨fun _ => ?_, fun h => absurd ⟨hA, hB⟩ h⟩
      obtain ⟨shB, b1, b2, b3, b4⟩ := makeShare_ok S hE hH m srs 3 _ hl seedB rngB hB
      obtain ⟨core, k1, k2, k3, k4⟩ := aggregate_second m shA shB b2 a3 a4 b3 b4
      simp only [Tests.aggregatedSerialization, a1, b1, Res.bind_ok', aggregate_first m shA (by omega) a3 a4, a2, Res.unwrap_ok, k4]
      refine checkSerialization_on (aggShare_lawful hC) _ ⟨by norm_num, by norm_num, by simp only; omega, by simp only; omega, ?_, ?_⟩
      · show (BMap.insertL 3 _ (BMap.insertL 2 _ [])).length < _
        simp [BMap.insertL]
      · intro e he
        have he : e ∈ BMap.insertL 3 _ (BMap.insertL 2 _ []) := he
        simp [BMap.insertL] at he
        rcases he with rfl | rfl <;> norm_num
    · refine ⟨fun h => absurd h.2 hB, fun _ => ?_⟩
      simp only [Tests.aggregatedSerialization, a1, Res.bind_ok', makeShare_panic S m srs 3 _ seedB rngB hB]
      rfl
  · refine ⟨fun h => absurd h.1 hA, fun _ => ?_⟩
    simp only [Tests.aggregatedSerialization, makeShare_panic S m srs 2 _ seedA rngA hA]
    rfl

/-! ## modified_scrape/node.rs -/

/-- **C101** (node, one node). -/
theorem C101_node_one (S : Suite r G1 G2 K) (hE : EdLaws S.ed) (hH : HashTotal S.hash) (m : Mode) (srs : SRS G1 G2)
    (key : Rng r) (seed : Bytes 32) (rng : Rng r) : Returns (Tests.nodeOne S m srs key seed rng) (SomeCoeff rng 1) := by
  have h73 := C73 S hH m (⟨⟨⟨srs, 1, 1⟩, BMap.ofList [(0, (Tests.dealer S srs 0 key seed).participant)], AggShare.empty 1 1⟩,
    Tests.dealer S srs 0 key seed⟩ : Node r G1 G2) rng (by norm_num)
  have hmiss : ∀ i < 1, (BMap.ofList [(0, (Tests.dealer S srs 0 key seed).participant)]).get i ≠ none := by
    intro i hi
    obtain rfl : i = 0 := by omega
    simp [BMap.get_ofList, BMap.lookupL]
  constructor
  · intro h
    obtain ⟨x, hx⟩ := h73.1.2 ⟨le_refl _, hmiss, Nat.one_pos, h, hE.keypair_ok seed⟩
    simp only [Tests.nodeOne, hx]
    rfl
  · intro h
    have hx := h73.2.2.2 (.inr ⟨hmiss, .inr (.inl fun k hk => by
      by_contra h0
      exact h ⟨k, hk, h0⟩)⟩)
    simp only [Tests.nodeOne, hx]
    rfl

theorem receive_of_exec {S : Suite r G1 G2 K} {m : Mode} {a0 a b : Aggregator r G1 G2} {shs : ℕ → PVSSShare r G1 G2}
    {p : Spec.Plan r} {rng : Rng r} {i : ℕ} (h1 : p.exec S m a0 shs = .ok a)
    (h2 : (Spec.Plan.share p rng i).exec S m a0 shs = .ok b) : Tests.receive S m a rng (shs i) = .ok b := by
  simp only [Spec.Plan.exec, h1, Res.bind_ok', Res.bind_eq_ok] at h2
  obtain ⟨u, h2, h3⟩ := h2
  simp only [Tests.receive, h2, Res.unwrap_ok, Res.bind_ok']
  rw [Res.ok.inj h3]

theorem receiveAgg_of_exec {S : Suite r G1 G2 K} {m : Mode} {a0 a b c : Aggregator r G1 G2} {shs : ℕ → PVSSShare r G1 G2}
    {p q : Spec.Plan r} {rng : Rng r} (h1 : p.exec S m a0 shs = .ok a) (hq : q.exec S m a0 shs = .ok c)
    (h2 : (Spec.Plan.merge p rng q).exec S m a0 shs = .ok b) : Tests.receiveAgg S m a rng c.tx = .ok b := by
  simp only [Spec.Plan.exec, h1, hq, Res.bind_ok', Res.bind_eq_ok] at h2
  obtain ⟨u, h2, h3⟩ := h2
  simp only [Tests.receiveAgg, h2, Res.unwrap_ok, Res.bind_ok']
  rw [Res.ok.inj h3]

theorem receive_tx {S : Suite r G1 G2 K} {m : Mode} {a b : Aggregator r G1 G2} {rng : Rng r} {sh : PVSSShare r G1 G2}
    (h : Tests.receive S m a rng sh = .ok b) : a.tx.aggregatePvssShare m sh = .ok b.tx := by
  simp only [Tests.receive, Res.bind_eq_ok, Res.unwrap_eq_ok] at h
  obtain ⟨u, h1, h2⟩ := h
  obtain ⟨rng', tx, -, h3, h4⟩ := (receiveShare_ok_iff S m a b rng sh).1 (Prod.ext h1 (Res.ok.inj h2))
  rw [h3, h4]

/-- Dealing in the tests: `share` succeeds unless all coefficients are zero. -/
theorem test_share (S : Suite r G1 G2 K) (hE : EdLaws S.ed) (hH : HashTotal S.hash) (m : Mode) (srs : SRS G1 G2)
    (x : Spec.Draws r) (i : ℕ) (hi : i < 4) (rng : Rng r) :
    (SomeCoeff rng 2 → ∃ y, (Spec.nodeOf S ⟨srs, 2, 4⟩ x i).share S m rng = .ok y) ∧
    (¬ SomeCoeff rng 2 → (Spec.nodeOf S ⟨srs, 2, 4⟩ x i).share S m rng = .panic) := by
  have h73 := C73 S hH m (Spec.nodeOf S ⟨srs, 2, 4⟩ x i) rng (by show 2 + 1 < 2 ^ 58; norm_num)
  have hmiss : ∀ j < 4, (Spec.table S ⟨srs, 2, 4⟩ x).get j ≠ none := by
    intro j hj
    rw [table_get S ⟨srs, 2, 4⟩ x j hj]
    simp
  refine ⟨fun h => h73.1.2 ⟨by show 1 ≤ 4; norm_num, hmiss, hi, h, hE.keypair_ok _⟩, fun h => h73.2.2.2 (.inr ⟨hmiss, .inr (.inl ?_)⟩)⟩
  intro k hk
  by_contra h0
  exact h ⟨k, hk, h0⟩

/-- **C101** (node, aggregation with four nodes). -/
theorem C101_node_four (S : Suite r G1 G2 K) (hS : PairLaws S) (hE : EdLaws S.ed) (hH : HashTotal S.hash) (m : Mode) (hr : 4 ≤ r)
    (srs : SRS G1 G2) (key : ℕ → Rng r) (seed : ℕ → Bytes 32) (deal recv : ℕ → Rng r) (ra : ZMod r) :
    Returns (Tests.nodeFour S m srs key seed deal recv ra) ((∀ i < 4, SomeCoeff (deal i) 2) ∧ key 0 0 ≠ 0) := by
  set cfg : Config G1 G2 := ⟨srs, 2, 4⟩ with hcfg
  set x : Spec.Draws r := ⟨key, seed, deal⟩ with hx
  have hsh := fun i hi => test_share S hE hH m srs x i hi (deal i)
  by_cases hall : ∀ i < 4, SomeCoeff (deal i) 2
  · have hd : Spec.Dealable cfg x := ⟨le_refl 4, hr, by show 4 < 2 ^ 58; norm_num, hall⟩
    obtain ⟨shs, hs⟩ := C85_share S hH hE m cfg x hd
    set a0 := Aggregator.new (r := r) cfg (Spec.table S cfg x) with ha0
    have hex : ∀ p : Spec.Plan r, (∀ i ∈ p.leaves, i < 4) → p.leaves.length < 2 ^ 64 → ∃ a, p.exec S m a0 shs = .ok a := by
      intro p h1 h2
      obtain ⟨a, ha, -⟩ := C85_agree S hS hE m m m cfg x hd shs hs p p h1
        (fun i => lt_of_le_of_lt List.count_le_length h2) (List.Perm.refl _)
      exact ⟨a, ha⟩
    have hag : ∀ (p q : Spec.Plan r) a b, (∀ i ∈ p.leaves, i < 4) → p.leaves.length < 2 ^ 64 → p.leaves.Perm q.leaves →
        p.exec S m a0 shs = .ok a → q.exec S m a0 shs = .ok b → a = b := by
      intro p q a b h1 h2 h3 h4 h5
      obtain ⟨c, h6, h7⟩ := C85_agree S hS hE m m m cfg x hd shs hs p q h1
        (fun i => lt_of_le_of_lt List.count_le_length h2) h3
      rw [h6] at h4; rw [h7] at h5
      rw [← Res.ok.inj h4, ← Res.ok.inj h5]
    let A1 : Spec.Plan r := .share .fresh (recv 0) 0
    let A2 : Spec.Plan r := .share A1 (recv 1) 1
    let B1 : Spec.Plan r := .share .fresh (recv 2) 1
    let B2 : Spec.Plan r := .share B1 (recv 3) 0
    let C1 : Spec.Plan r := .share .fresh (recv 4) 2
    let C2 : Spec.Plan r := .share C1 (recv 5) 3
    let D1 : Spec.Plan r := .share .fresh (recv 6) 3
    let D2 : Spec.Plan r := .share D1 (recv 7) 2
    let C3 : Spec.Plan r := .merge C2 (recv 8) A2
    let D3 : Spec.Plan r := .merge D2 (recv 9) A2
    let A3 : Spec.Plan r := .merge A2 (recv 10) C2
    let B3 : Spec.Plan r := .merge B2 (recv 11) C2
    have hsmall : ∀ (l : List ℕ), l.length ≤ 4 → l.length < 2 ^ 64 := fun l h => lt_of_le_of_lt h (by norm_num)
    have h0 : (Spec.Plan.fresh : Spec.Plan r).exec S m a0 shs = .ok a0 := rfl
    obtain ⟨a1, hA1⟩ := hex A1 (by show ∀ i ∈ [0], i < 4; decide) (hsmall _ (by show [0].length ≤ 4; decide))
    obtain ⟨a2, hA2⟩ := hex A2 (by show ∀ i ∈ [0, 1], i < 4; decide) (hsmall _ (by show [0, 1].length ≤ 4; decide))
    obtain ⟨b1, hB1⟩ := hex B1 (by show ∀ i ∈ [1], i < 4; decide) (hsmall _ (by show [1].length ≤ 4; decide))
    obtain ⟨b2, hB2⟩ := hex B2 (by show ∀ i ∈ [1, 0], i < 4; decide) (hsmall _ (by show [1, 0].length ≤ 4; decide))
    obtain ⟨c1, hC1⟩ := hex C1 (by show ∀ i ∈ [2], i < 4; decide) (hsmall _ (by show [2].length ≤ 4; decide))
    obtain ⟨c2, hC2⟩ := hex C2 (by show ∀ i ∈ [2, 3], i < 4; decide) (hsmall _ (by show [2, 3].length ≤ 4; decide))
    obtain ⟨d1, hD1⟩ := hex D1 (by show ∀ i ∈ [3], i < 4; decide) (hsmall _ (by show [3].length ≤ 4; decide))
    obtain ⟨d2, hD2⟩ := hex D2 (by show ∀ i ∈ [3, 2], i < 4; decide) (hsmall _ (by show [3, 2].length ≤ 4; decide))
    obtain ⟨c3, hC3⟩ := hex C3 (by show ∀ i ∈ [2, 3, 0, 1], i < 4; decide) (hsmall _ (by show [2, 3, 0, 1].length ≤ 4; decide))
    obtain ⟨d3, hD3⟩ := hex D3 (by show ∀ i ∈ [3, 2, 0, 1], i < 4; decide) (hsmall _ (by show [3, 2, 0, 1].length ≤ 4; decide))
    obtain ⟨b3, hB3⟩ := hex B3 (by show ∀ i ∈ [1, 0, 2, 3], i < 4; decide) (hsmall _ (by show [1, 0, 2, 3].length ≤ 4; decide))
    have hlA : ∀ i ∈ A3.leaves, i < 4 := by show ∀ i ∈ [0, 1, 2, 3], i < 4; decide
    have hlL : A3.leaves.length < 2 ^ 64 := hsmall _ (by show [0, 1, 2, 3].length ≤ 4; decide)
    obtain ⟨a3, hA3, -, -, -, ⟨l, hl, -⟩, -⟩ :=
      (exec_honest hS (C85_setting S hE m cfg x hd shs hs) shs 4 (published_mem S hE m cfg x hd shs hs) m A3 hlA).1
        fun i => lt_of_le_of_lt List.count_le_length hlL
    obtain rfl := hag A2 B2 a2 b2 (by show ∀ i ∈ [0, 1], i < 4; decide) (hsmall _ (by show [0, 1].length ≤ 4; decide))
      (by show [0, 1].Perm [1, 0]; decide) hA2 hB2
    obtain rfl := hag C2 D2 c2 d2 (by show ∀ i ∈ [2, 3], i < 4; decide) (hsmall _ (by show [2, 3].length ≤ 4; decide))
      (by show [2, 3].Perm [3, 2]; decide) hC2 hD2
    obtain rfl := hag A3 B3 a3 b3 hlA hlL (by show [0, 1, 2, 3].Perm [1, 0, 2, 3]; decide) hA3 hB3
    obtain rfl := hag A3 C3 a3 c3 hlA hlL (by show [0, 1, 2, 3].Perm [2, 3, 0, 1]; decide) hA3 hC3
    obtain rfl := hag A3 D3 a3 d3 hlA hlL (by show [0, 1, 2, 3].Perm [3, 2, 0, 1]; decide) hA3 hD3
    obtain ⟨_, s0⟩ := hs 0 (by show 0 < 4; decide)
    obtain ⟨_, s1⟩ := hs 1 (by show 1 < 4; decide)
    obtain ⟨_, s2⟩ := hs 2 (by show 2 < 4; decide)
    obtain ⟨_, s3⟩ := hs 3 (by show 3 < 4; decide)
    have hnode : ∀ i, (Node.new cfg (Tests.dealer S srs i (key i) (seed i)) (Tests.participants S srs 4 key seed)) =
      Spec.nodeOf S cfg x i := fun i => rfl
    have hagg : ∀ i, (Spec.nodeOf S cfg x i).aggregator = a0 := fun i => rfl
    have s0 : (Spec.nodeOf S cfg x 0).share S m (deal 0) = _ := s0
    have s1 : (Spec.nodeOf S cfg x 1).share S m (deal 1) = _ := s1
    have s2 : (Spec.nodeOf S cfg x 2).share S m (deal 2) = _ := s2
    have s3 : (Spec.nodeOf S cfg x 3).share S m (deal 3) = _ := s3
    simp only [Tests.nodeFour, ← hcfg, hnode, s0, s1, s2, s3, hagg, Res.unwrap_ok, Res.bind_ok',
      receive_of_exec h0 hA1, receive_of_exec hA1 hA2, receive_of_exec h0 hB1, receive_of_exec hB1 hB2,
      receive_of_exec h0 hC1, receive_of_exec hC1 hC2, receive_of_exec h0 hD1, receive_of_exec hD1 hD2,
      receiveAgg_of_exec hC2 hA2 hC3, receiveAgg_of_exec hD2 hA2 hD3, receiveAgg_of_exec hA2 hC2 hA3,
      receiveAgg_of_exec hB2 hC2 hB3, check_true trivial]
    have hshares := honest_shares hl (deploy_keyTable S cfg x)
    have h5 := C05 (ε := Empty) a3.tx.core.encs (key 0 0) 0
    show Returns (DecryptedShare.generate a3.tx.core.encs (key 0 0) 0 >>= _) _
    by_cases hk : key 0 0 = 0
    · refine ⟨fun h => absurd hk h.2, fun _ => ?_⟩
      rw [h5.1.2 (.inr hk)]
      rfl
    · refine ⟨fun _ => ?_, fun h => absurd ⟨hall, hk⟩ h⟩
      have hle : 0 < a3.tx.core.encs.length := by rw [hshares.encs_length]; show 0 < 4; decide
      have hlc : 0 < a3.tx.core.comms.length := by rw [hshares.comms_length]; show 0 < 4; decide
      rw [(h5.2.1 ⟨(Spec.totalPoly l).eval (Spec.point r 0) • srs.g1, 0⟩).2 ⟨hk, rfl, by
        rw [List.getElem?_eq_getElem hle, hshares.enc 0 hle, smul_comm]⟩, Res.bind_ok']
      simp only []
      rw [idx_ok hlc, Res.bind_ok', hshares.comm 0 hlc]
      refine check_true ?_
      have := (decCheck_iff hS srs.g1 srs.g2 ra ((Spec.totalPoly l).eval (Spec.point r 0) • srs.g2)
        ((Spec.totalPoly l).eval (Spec.point r 0) • srs.g1)).2 (by rw [hS.smul_comm])
      unfold Spec.DecCheck at this
      simp only [prodPairings, mulRepr_eq_smul, ← sub_eq_add_neg, ← this]
      simp [mul_assoc]
      rfl
  · refine ⟨fun h => absurd h.1 hall, fun _ => ?_⟩
    have hnode : ∀ i, (Node.new cfg (Tests.dealer S srs i (key i) (seed i)) (Tests.participants S srs 4 key seed)) =
      Spec.nodeOf S cfg x i := fun i => rfl
    simp only [Tests.nodeFour, ← hcfg, hnode]
    by_cases h0 : SomeCoeff (deal 0) 2
    · obtain ⟨y0, s0⟩ := (hsh 0 (by decide)).1 h0
      rw [s0, Res.unwrap_ok, Res.bind_ok']
      by_cases h1 : SomeCoeff (deal 1) 2
      · obtain ⟨y1, s1⟩ := (hsh 1 (by decide)).1 h1
        rw [s1, Res.unwrap_ok, Res.bind_ok']
        by_cases h2 : SomeCoeff (deal 2) 2
        · obtain ⟨y2, s2⟩ := (hsh 2 (by decide)).1 h2
          rw [s2, Res.unwrap_ok, Res.bind_ok']
          have h3 : ¬ SomeCoeff (deal 3) 2 := by
            intro h3
            refine hall fun i hi => ?_
            interval_cases i <;> assumption
          rw [(hsh 3 (by decide)).2 h3]
          rfl
        · rw [(hsh 2 (by decide)).2 h2]
          rfl
      · rw [(hsh 1 (by decide)).2 h1]
        rfl
    · rw [(hsh 0 (by decide)).2 h0]
      rfl

theorem addWeight_one (m : Mode) (w : UInt64) (h : (addWeight m 1 1 : Res PVSSError _) = .ok w) : w = 2 := by
  cases m <;> exact (Res.ok.inj h).symm

/-- **C101** (node, double aggregation). -/
theorem C101_node_double (S : Suite r G1 G2 K) (hS : PairLaws S) (hE : EdLaws S.ed) (hH : HashTotal S.hash) (m : Mode) (hr : 4 ≤ r)
    (srs : SRS G1 G2) (hg : srs.g2 ≠ 0) (key : ℕ → Rng r) (seed : ℕ → Bytes 32) (deal : Rng r) (recv : ℕ → Rng r) :
    Returns (Tests.nodeDouble S m srs key seed deal recv) (SomeCoeff deal 2) := by
  set cfg : Config G1 G2 := ⟨srs, 2, 4⟩ with hcfg
  set x : Spec.Draws r := ⟨key, seed, fun _ => deal⟩ with hx
  have hsh := test_share S hE hH m srs x 0 (by decide) deal
  have hnode : ∀ i, (Node.new cfg (Tests.dealer S srs i (key i) (seed i)) (Tests.participants S srs 4 key seed)) =
    Spec.nodeOf S cfg x i := fun i => rfl
  constructor
  · intro hc
    have hd : Spec.Dealable cfg x := ⟨le_refl 4, hr, by show 4 < 2 ^ 58; norm_num, fun _ _ => hc⟩
    obtain ⟨shs, hs⟩ := C85_share S hH hE m cfg x hd
    set a0 := Aggregator.new (r := r) cfg (Spec.table S cfg x) with ha0
    have hex : ∀ p : Spec.Plan r, (∀ i ∈ p.leaves, i < 4) → p.leaves.length < 2 ^ 64 → ∃ a, p.exec S m a0 shs = .ok a := by
      intro p h1 h2
      obtain ⟨a, ha, -⟩ := C85_agree S hS hE m m m cfg x hd shs hs p p h1
        (fun i => lt_of_le_of_lt List.count_le_length h2) (List.Perm.refl _)
      exact ⟨a, ha⟩
    let A1 : Spec.Plan r := .share .fresh (recv 0) 0
    let A2 : Spec.Plan r := .share A1 (recv 1) 0
    let B : Spec.Plan r := .merge .fresh (recv 2) A2
    have h0 : (Spec.Plan.fresh : Spec.Plan r).exec S m a0 shs = .ok a0 := rfl
    have hsmall : ∀ (l : List ℕ), l.length ≤ 4 → l.length < 2 ^ 64 := fun l h => lt_of_le_of_lt h (by norm_num)
    obtain ⟨a1, hA1⟩ := hex A1 (by show ∀ i ∈ [0], i < 4; decide) (hsmall _ (by show [0].length ≤ 4; decide))
    obtain ⟨a2, hA2⟩ := hex A2 (by show ∀ i ∈ [0, 0], i < 4; decide) (hsmall _ (by show [0, 0].length ≤ 4; decide))
    obtain ⟨b, hB⟩ := hex B (by show ∀ i ∈ [0, 0], i < 4; decide) (hsmall _ (by show [0, 0].length ≤ 4; decide))
    have r1 := receive_of_exec h0 hA1
    have r2 := receive_of_exec hA1 hA2
    have r3 := receiveAgg_of_exec h0 hA2 hB
    have hagg : ∀ i, (Spec.nodeOf S cfg x i).aggregator = a0 := fun i => rfl
    obtain ⟨rng', s0⟩ := hs 0 (by show 0 < 4; decide)
    have s0 : (Spec.nodeOf S cfg x 0).share S m deal = _ := s0
    obtain ⟨hid, hgood⟩ := dealt_good S hE m cfg x hd shs hs 0 (by show 0 < 4; decide)
    obtain ⟨pk, -, hshares⟩ := hgood.keys
    have t1 := receive_tx r1
    have t2 := receive_tx r2
    have e1 := (aggregate_iff _ _ _ _).1 t1
    have e2 := (aggregate_iff _ _ _ _).1 t2
    have hg1 : a1.tx.contributions.get 0 = some ((shs 0).signedProof, 1) := by
      have := e1.2.2.2.2.2.1 0 (by show 0 < 4; decide)
      rw [get_ofShare, hid, if_pos rfl] at this
      exact (Res.ok.inj this).symm
    obtain ⟨-, w, hw, hg2⟩ : (shs 0).signedProof.decompProof.gs = (shs 0).signedProof.decompProof.gs ∧ ∃ w,
        (addWeight m 1 1 : Res PVSSError _) = .ok w ∧ a2.tx.contributions.get 0 = some ((shs 0).signedProof, w) := by
      have := e2.2.2.2.2.2.1 0 (by rw [e1.2.2.2.1]; show 0 < 4; decide)
      rw [get_ofShare, hid, if_pos rfl, hg1] at this
      exact (mergeVal_some_ok_iff m _ _ _ _ _).1 this
    obtain rfl := addWeight_one m w hw
    have hcore1 : a1.tx.core = (shs 0).core := by
      have h1 := e1.2.2.2.2.1
      have h2 : (a0.tx.core).aggregate (shs 0).core = .ok (shs 0).core :=
        emptyCore_left (by show 1 ≤ 4; decide) hshares.encs_length hshares.comms_length
      exact (Res.ok.inj (h2.symm.trans h1)).symm
    have hne : a1.tx.core ≠ a2.tx.core := by
      intro heq
      have h1 := ((coreAggregate_iff _ _ _).1 e2.2.2.2.2.1).2.2.2.2.2
      have hl4 : (shs 0).core.comms.length = 4 := hshares.comms_length
      rw [← heq, hcore1] at h1
      have hz : ∀ i < 4, (Spec.dealtPoly cfg x 0).eval (Spec.point r i) = 0 := by
        intro i hi
        have hi' : i < (shs 0).core.comms.length := by omega
        have h2 := congrArg (fun l : List G2 => l[i]?) h1
        simp only [AggShare.ofShare, List.getElem?_map, List.getElem?_eq_getElem hi'] at h2
        rw [List.getElem?_eq_getElem (by simp; omega)] at h2
        simp only [List.getElem_zip, Option.map_some, Option.some.injEq] at h2
        have h3 := left_eq_add.1 h2
        rw [hshares.comm i hi'] at h3
        exact (smul_eq_zero.1 h3).resolve_right hg
      have hp : Spec.dealtPoly cfg x 0 = 0 := by
        refine Polynomial.eq_zero_of_natDegree_lt_card_of_eval_eq_zero _ (f := fun i : Fin 4 => Spec.point r i) ?_
          (fun i => hz i i.2) (lt_of_le_of_lt hshares.degree (by simp [hcfg]))
        intro i j hij
        have h1 : ((i : ℕ) : ZMod r) = ((j : ℕ) : ZMod r) := by simpa [Spec.point] using hij
        rw [ZMod.natCast_eq_natCast_iff, Nat.ModEq, Nat.mod_eq_of_lt (by omega), Nat.mod_eq_of_lt (by omega)] at h1
        exact Fin.ext h1
      obtain ⟨k, hk, hk0⟩ := hc
      refine hk0 ?_
      have := dealtPoly_coeff cfg x 0 k
      rw [hp, if_pos hk] at this
      simpa using this.symm
    have hcfgs : a1.tx.numParticipants = a2.tx.numParticipants ∧ a1.tx.degree = a2.tx.degree := ⟨e2.2.2.2.1.symm, e2.2.2.1.symm⟩
    simp only [Tests.nodeDouble, ← hcfg, hnode, s0, hagg, Res.unwrap_ok, Res.bind_ok', r1, r2]
    rw [check_true hcfgs.1, Res.bind_ok', check_true hcfgs.2, Res.bind_ok', check_true hne, Res.bind_ok', hg1, hg2]
    simp only [Res.unwrapOpt, Res.bind_ok', check_true trivial, r3]
  · intro hc
    simp only [Tests.nodeDouble, ← hcfg, hnode]
    rw [hsh.2 hc]
    rfl

/-! ### Examples -/

/-- Non-vacuity of C101 (nodes): with all draws of the dealers equal to one and nonzero keys, the test of four nodes passes; with a
zero key of node A it panics; with a dealer who draws zeros it panics. -/
example (seed : ℕ → Bytes 32) (recv : ℕ → Rng 13) :
    Tests.nodeFour (Toy.suite 13) .checked Toy.cfg.srs (fun i _ => (i : ZMod 13) + 1) seed (fun _ _ => 1) recv 7 = .ok () ∧
    Tests.nodeFour (Toy.suite 13) .checked Toy.cfg.srs (fun i _ => (i : ZMod 13)) seed (fun _ _ => 1) recv 7 = .panic ∧
    Tests.nodeFour (Toy.suite 13) .checked Toy.cfg.srs (fun i _ => (i : ZMod 13) + 1) seed (fun i _ => if i = 2 then 0 else 1) recv 7 =
      .panic := by
  refine ⟨(C101_node_four _ (Toy.pairLaws 13) Toy.edLaws (Toy.hashTotal 13) _ (by decide) _ _ _ _ _ _).1 ⟨fun i _ => ⟨0, by decide, by decide⟩, by decide⟩,
    (C101_node_four _ (Toy.pairLaws 13) Toy.edLaws (Toy.hashTotal 13) _ (by decide) _ _ _ _ _ _).2 fun h => h.2 (by decide),
    (C101_node_four _ (Toy.pairLaws 13) Toy.edLaws (Toy.hashTotal 13) _ (by decide) _ _ _ _ _ _).2 fun h => ?_⟩
  obtain ⟨k, -, hk⟩ := h.1 2 (by decide)
  exact hk rfl

end Verif
