import Verif.Props.Wire
import Verif.Props.History

/-!
# What an aggregator holds over time: C106

Whatever is received, in whatever order and with whatever outcome, the transcript an aggregator holds stays bounded, and what is
recorded for a party stays recorded.
-/

set_option linter.unusedSectionVars false

namespace Verif

variable {r : ℕ} [Fact r.Prime] {G1 G2 K : Type}
  [AddCommGroup G1] [DecidableEq G1] [AddCommGroup G2] [DecidableEq G2] [CommMonoid K] [DecidableEq K]

/-- An aggregator whose transcript has the shape of its configuration. -/
def Spec.Shaped (a : Aggregator r G1 G2) : Prop := Spec.WellFormed a.config.degree a.config.numParticipants a.tx

/-- `v'` keeps what `v` recorded for a party: the same signed proof, with a weight that (in a checked build) is no smaller. -/
def Spec.Keeps (m : Mode) (v v' : Option (SignedProof r G2 × UInt64)) : Prop :=
  ∀ x w, v = some (x, w) → ∃ w', v' = some (x, w') ∧ (m = .checked → w ≤ w')

theorem Spec.Keeps.trans {m : Mode} {u v w : Option (SignedProof r G2 × UInt64)} (h : Spec.Keeps m u v) (h' : Spec.Keeps m v w) :
    Spec.Keeps m u w := by
  intro x a ha
  obtain ⟨b, hb, hab⟩ := h x a ha
  obtain ⟨c, hc, hbc⟩ := h' x b hb
  exact ⟨c, hc, fun hm => UInt64.le_trans (hab hm) (hbc hm)⟩

theorem Spec.Keeps.refl (m : Mode) (v : Option (SignedProof r G2 × UInt64)) : Spec.Keeps m v v :=
  fun _ w h => ⟨w, h, fun _ => UInt64.le_refl w⟩

theorem mergeVal_keeps {m : Mode} {u v w : Option (SignedProof r G2 × UInt64)} (h : mergeVal m u v = .ok w) :
    Spec.Keeps m u w := by
  rintro x a rfl
  cases v with
  | none =>
    simp only [mergeVal, Res.ok.injEq] at h
    exact ⟨a, h.symm, fun _ => UInt64.le_refl a⟩
  | some y =>
    obtain ⟨y, b⟩ := y
    simp only [mergeVal] at h
    split at h
    · cases h
    · rw [Res.bind_eq_ok] at h
      obtain ⟨c, hc, h⟩ := h
      simp only [Res.ok.injEq] at h
      refine ⟨c, h.symm, ?_⟩
      rintro rfl
      obtain ⟨h1, rfl⟩ := addWeight_checked_iff.1 hc
      rw [UInt64.le_iff_toNat_le, UInt64.toNat_add, Nat.mod_eq_of_lt h1]
      omega

/-- What one call does to the transcript: nothing, or a merge with another transcript. -/
theorem step_tx (S : Suite r G1 G2 K) (m : Mode) (a : Aggregator r G1 G2) (op : Op r G1 G2) :
    (a.step S m op).2.config = a.config ∧ ((a.step S m op).2.tx = a.tx ∨ ∃ b, a.tx.aggregate m b = .ok (a.step S m op).2.tx) := by
  refine ⟨?_, ?_⟩
  · cases op with
    | share rng sh =>
      simp only [Aggregator.step, Aggregator.receiveShare]
      cases (a.shareVerify S m rng sh).unwrap (ε' := PVSSError) with
      | ok g => simp only; cases a.tx.aggregatePvssShare m sh <;> rfl
      | _ => rfl
    | agg rng ag =>
      simp only [Aggregator.step, Aggregator.receiveAggregatedShare]
      cases (a.aggregationVerify S m rng ag).unwrap (ε' := PVSSError) with
      | ok g => simp only; cases a.tx.aggregate m ag <;> rfl
      | _ => rfl
  cases op with
  | share rng sh =>
    simp only [Aggregator.step, Aggregator.receiveShare]
    cases (a.shareVerify S m rng sh).unwrap (ε' := PVSSError) with
    | ok g =>
      simp only
      cases hx : a.tx.aggregatePvssShare m sh with
      | ok tx => exact Or.inr ⟨_, hx⟩
      | _ => exact Or.inl rfl
    | _ => exact Or.inl rfl
  | agg rng ag =>
    simp only [Aggregator.step, Aggregator.receiveAggregatedShare]
    cases (a.aggregationVerify S m rng ag).unwrap (ε' := PVSSError) with
    | ok g =>
      simp only
      cases hx : a.tx.aggregate m ag with
      | ok tx => exact Or.inr ⟨_, hx⟩
      | _ => exact Or.inl rfl
    | _ => exact Or.inl rfl

theorem shaped_step {S : Suite r G1 G2 K} {m : Mode} {a : Aggregator r G1 G2} (op : Op r G1 G2) (h : Spec.Shaped a) :
    Spec.Shaped (a.step S m op).2 := by
  obtain ⟨hc, hx⟩ := step_tx S m a op
  unfold Spec.Shaped at h ⊢
  rw [hc]
  rcases hx with hx | ⟨b, hx⟩
  · rw [hx]; exact h
  · have := aggregate_wellFormed hx (by rw [h.encs_length, h.num]) (by rw [h.comms_length, h.num])
    rwa [h.degree, h.num] at this

theorem shaped_run {S : Suite r G1 G2 K} {m : Mode} (ops : List (Op r G1 G2)) {a : Aggregator r G1 G2} (h : Spec.Shaped a) :
    Spec.Shaped (a.run S m ops) ∧ (a.run S m ops).config = a.config := by
  induction ops generalizing a with
  | nil => exact ⟨h, rfl⟩
  | cons op ops ih =>
    obtain ⟨h1, h2⟩ := ih (shaped_step (S := S) (m := m) op h)
    exact ⟨h1, h2.trans (step_tx S m a op).1⟩

theorem entries_length_le {V : Type} (b : BMap V) (n : ℕ) (h : ∀ i v, b.get i = some v → i < n) : b.entries.length ≤ n := by
  have hs : (b.entries.map Prod.fst).Pairwise (· < ·) := List.pairwise_map.2 b.2
  have hsub : b.entries.map Prod.fst ⊆ List.range n := by
    intro i hi
    obtain ⟨⟨j, v⟩, hj, rfl⟩ := List.mem_map.1 hi
    exact List.mem_range.2 (h j v ((BMap.mem_entries b).1 hj))
  have hn : (b.entries.map Prod.fst).Nodup := hs.imp fun h => Nat.ne_of_lt h
  simpa using (hn.subperm hsub).length_le

/-- **C106** (bounded). After any calls whatsoever the transcript of an aggregator for `n` parties has `n` encryptions, `n`
commitments and contributions of at most `n` different parties, all with ids below `n`; written out it takes exactly
`32 + n·(n1 + n2) + 8 + k·(16 + 2·n2 + 2·nf + 64)` bytes with `k ≤ n` contributions. -/
theorem C106_bounded (S : Suite r G1 G2 K) {n1 n2 nf : ℕ} (hl : CodecLaws S n1 n2 nf) (m : Mode) (cfg : Config G1 G2)
    (ps : BMap (Participant G1)) (ops : List (Op r G1 G2)) :
    let tx := ((Aggregator.new cfg ps : Aggregator r G1 G2).run S m ops).tx
    let n := cfg.numParticipants
    tx.core.encs.length = n ∧ tx.core.comms.length = n ∧ (∀ e ∈ tx.contributions.entries, e.1 < n) ∧
    ∃ k ≤ n, tx.contributions.entries.length = k ∧
      ((AggShare.codec S).enc tx).length = 40 + n * (n1 + n2) + k * (80 + 2 * n2 + 2 * nf) := by
  intro tx n
  obtain ⟨h, hc⟩ := shaped_run (S := S) (m := m) ops (a := Aggregator.new cfg ps) (empty_wellFormed _ _)
  unfold Spec.Shaped at h
  rw [hc] at h
  refine ⟨h.encs_length, h.comms_length, fun e he => h.ids e.1 e.2 ((BMap.mem_entries _).1 he), _,
    entries_length_le _ _ h.ids, rfl, ?_⟩
  rw [(C65_size S hl).2.2.2.2.2.2.2]
  have hs : ∀ x : SignedProof r G2, x.serializedSize n2 nf = 2 * n2 + 2 * nf + 64 := fun x => by
    unfold SignedProof.serializedSize DecompProof.serializedSize
    rw [(C53.2.2.2 x.signature).1]
    omega
  have e1 : tx.core.encs.length = n := h.encs_length
  have e2 : tx.core.comms.length = n := h.comms_length
  simp only [AggShare.serializedSize, PVSSCore.serializedSize, sizeVec, sizeU64, hs, List.map_const', List.sum_replicate,
    smul_eq_mul]
  rw [e1, e2]
  ring

/-- **C106** (permanent). What an aggregator holds for a party is never replaced or lost: after any further calls it still holds
the same signed proof for that party, and in a checked build the weight has not gone down. -/
theorem C106_permanent (S : Suite r G1 G2 K) (m : Mode) (cfg : Config G1 G2) (ps : BMap (Participant G1))
    (ops ops' : List (Op r G1 G2)) (i : ℕ) (x : SignedProof r G2) (w : UInt64)
    (h : ((Aggregator.new cfg ps : Aggregator r G1 G2).run S m ops).tx.contributions.get i = some (x, w)) :
    ∃ w', ((Aggregator.new cfg ps : Aggregator r G1 G2).run S m (ops ++ ops')).tx.contributions.get i = some (x, w') ∧
      (m = .checked → w ≤ w') := by
  have key : ∀ (l : List (Op r G1 G2)) (a : Aggregator r G1 G2), Spec.Shaped a →
      Spec.Keeps m (a.tx.contributions.get i) ((a.run S m l).tx.contributions.get i) := by
    intro l
    induction l with
    | nil => exact fun a _ => .refl _ _
    | cons op l ih =>
      intro a ha
      refine Spec.Keeps.trans ?_ (ih _ (shaped_step (S := S) (m := m) op ha))
      rcases (step_tx S m a op).2 with hx | ⟨b, hx⟩
      · rw [hx]; exact .refl _ _
      · intro y v hy
        obtain ⟨-, -, -, -, -, h6, -⟩ := (aggregate_iff _ _ _ _).1 hx
        exact mergeVal_keeps (h6 i (by rw [ha.num]; exact ha.ids _ _ hy)) y v hy
  have hr : (Aggregator.new cfg ps : Aggregator r G1 G2).run S m (ops ++ ops') =
      ((Aggregator.new cfg ps).run S m ops).run S m ops' := List.foldl_append
  rw [hr]
  exact key ops' _ (shaped_run ops (a := Aggregator.new cfg ps) (empty_wellFormed _ _)).1 x w h

/-- Non-vacuity of C106_permanent: after two receptions of a share its dealer is recorded with weight 2, and stays so whatever
comes. -/
example (ops' : List (Op 13 (ZMod 13) (ZMod 13))) : ∃ (ops : List (Op 13 (ZMod 13) (ZMod 13))) (x : SignedProof 13 (ZMod 13))
    (w w' : UInt64), w.toNat = 2 ∧ (Toy.agg.run (Toy.suite 13) .checked ops).tx.contributions.get 2 = some (x, w) ∧
    (Toy.agg.run (Toy.suite 13) .checked (ops ++ ops')).tx.contributions.get 2 = some (x, w') ∧ w ≤ w' := by
  obtain ⟨sh, hcore, hid, ⟨p, hg⟩, -⟩ := Toy.accepted52
  obtain ⟨-, -, ⟨x, w, h3, -, h4⟩, -⟩ := C28_fresh (Toy.suite 13) (Toy.pairLaws 13) .checked .checked Toy.cfg Toy.parties sh p hg
    [Toy.rng52, fun _ => 0] (by simp) (by decide) (by decide) (by decide) (by decide)
  rw [hid] at h3
  obtain ⟨w', h5, h6⟩ := C106_permanent (Toy.suite 13) .checked Toy.cfg Toy.parties _ ops' 2 x w h3
  exact ⟨_, x, w, w', h4, h3, h5, h6 rfl⟩

/-- Non-vacuity of C106_bounded at the toy sizes. -/
example (ops : List (Op 13 (ZMod 13) (ZMod 13))) :
    ((AggShare.codec (Toy.suite 13)).enc (Toy.agg.run (Toy.suite 13) .wrapping ops).tx).length ≤ 40 + 4 * 64 + 4 * 208 := by
  obtain ⟨-, -, -, k, hk, -, h⟩ := C106_bounded (Toy.suite 13) (Toy.codecLaws 13 (by omega)) .wrapping Toy.cfg Toy.parties ops
  have hn : Toy.cfg.numParticipants = 4 := rfl
  rw [hn] at hk h
  exact le_trans (le_of_eq h) (by omega)

end Verif
