import Verif.Model.Tests
import Verif.Props.Deploy
import Verif.Props.Schnorr
import Verif.Props.Codec
import Verif.Props.Degree
import Verif.Props.Interp

/-!
# The repository's unit tests pass (C101)

The outcome of every test function, for all draws of its random generator. `Returns t p` says that the test function returns
exactly when `p` holds of the draws, and panics otherwise; tests marked `#[should_panic]` succeed in the second case.
-/

namespace Verif

set_option linter.unusedSectionVars false

/-- The test function returns if `p`, and panics if not. -/
def Spec.Returns (t : Tests.Outcome) (p : Prop) : Prop := (p → t = .ok ()) ∧ (¬ p → t = .panic)

/-- The test function returns. -/
def Spec.Passes (t : Tests.Outcome) : Prop := t = .ok ()

open Spec

theorem returns_iff {t : Tests.Outcome} {p : Prop} (h : Returns t p) : (t = .ok () ↔ p) ∧ (t = .panic ↔ ¬ p) := by
  by_cases hp : p
  · have := h.1 hp
    simp [this, hp]
  · have := h.2 hp
    simp [this, hp]

theorem returns_congr {t : Tests.Outcome} {p q : Prop} (h : Returns t p) (hpq : p ↔ q) : Returns t q :=
  ⟨fun hq => h.1 (hpq.2 hq), fun hq => h.2 fun hp => hq (hpq.1 hp)⟩

theorem returns_unwrap {ε : Type} {t : Res ε Unit} {p : Prop} {e : ε} (h1 : p → t = .ok ()) (h2 : ¬ p → t = .err e) :
    Returns (t.unwrap : Tests.Outcome) p :=
  ⟨fun hp => by rw [h1 hp]; rfl, fun hp => by rw [h2 hp]; rfl⟩

theorem returns_check {p : Prop} [Decidable p] : Returns (Tests.check p) p :=
  ⟨fun hp => if_pos hp, fun hp => if_neg hp⟩

theorem check_true {ε : Type} {p : Prop} [Decidable p] (hp : p) : (Tests.check p : Res ε Unit) = .ok () := if_pos hp

theorem checkSerialization_ok {ε α : Type} [DecidableEq α] {c : Codec α} (hc : c.Lawful) (x : α) :
    (Tests.checkSerialization c x : Res ε Unit) = .ok () := by
  have h := hc x []
  rw [List.append_nil] at h
  simp only [Tests.checkSerialization, h]
  exact check_true rfl

theorem checkSerialization_on {ε α : Type} [DecidableEq α] {c : Codec α} {P : α → Prop} (hc : c.LawfulOn P) (x : α) (hx : P x) :
    (Tests.checkSerialization c x : Res ε Unit) = .ok () := by
  have h := hc x hx []
  rw [List.append_nil] at h
  simp only [Tests.checkSerialization, h]
  exact check_true rfl

theorem prodLawful {α β : Type} {a : Codec α} {b : Codec β} (ha : a.Lawful) (hb : b.Lawful) : (Codec.prod a b).Lawful :=
  (Codec.prod_lawful (ha.on fun _ => True) (hb.on fun _ => True)).lawful fun _ => ⟨trivial, trivial⟩

variable {r : ℕ} [Fact r.Prime] {G : Type} [AddCommGroup G] [DecidableEq G] [Module (ZMod r) G]

/-! ## nizk/dlk/mod.rs -/

theorem dlk_prove_eq (C : Curve G) (H : HashEnv r) (g : G) (rng : Rng r) (w c : ZMod r)
    (hc : DLK.challenge C H g (rng 0 • g) = .ok c) :
    DLK.prove C H g rng w = .ok ((rng 0 • g, c, rng 0 - w * c), rng.drop 1) := by
  rw [← mulRepr_eq_smul] at hc ⊢
  simp only [DLK.prove, hc, Res.bind_ok']

theorem dlk_challenge_ok (C : Curve G) (H : HashEnv r) (hH : HashTotal H) (g X : G) :
    ∃ c, DLK.challenge C H g X = .ok c := hashToField_total (ε := NIZKError) hH dlk_persona_length _

/-- **C101** (dlk, simple). -/
theorem C101_dlk_simple (C : Curve G) (H : HashEnv r) (hH : HashTotal H) (rng : Rng r) : Passes (Tests.dlkSimple C H rng) := by
  obtain ⟨proof, hp⟩ := C36_total C H hH C.gen (rng.drop 1) (rng 0)
  have := (C36 C H C.gen _ _ _ _ hp).2
  simp only [DLK.fromWitness] at this
  simp only [Passes, Tests.dlkSimple, DLK.setup, DLK.generatePair, hp, Res.unwrap_ok, Res.bind_ok', this]

/-- **C101** (dlk, wrong statement). The draws are: the witness, the nonce, the second witness. -/
theorem C101_dlk_wrong_statement (C : Curve G) (hg : C.gen ≠ 0) (H : HashEnv r) (hH : HashTotal H) (rng : Rng r) :
    Returns (Tests.dlkWrongStatement C H rng) (rng 2 = rng 0 ∨ DLK.challenge C H C.gen (rng 1 • C.gen) = .ok 0) := by
  obtain ⟨c, hc⟩ := dlk_challenge_ok C H hH C.gen (rng 1 • C.gen)
  have hp := dlk_prove_eq C H C.gen (rng.drop 1) (rng 0) c hc
  simp only [Tests.dlkWrongStatement, DLK.setup, DLK.generatePair, hp, Res.unwrap_ok, Res.bind_ok', mulRepr_eq_smul]
  have h := C39 C H C.gen (rng 2 • C.gen) (rng 1 • C.gen) c (rng 1 - rng 0 * c) c hc
  refine returns_congr (returns_unwrap h.1.2 h.2) ?_
  rw [hc]
  have : ((rng 1 - rng 0 * c) • C.gen + c • rng 2 • C.gen = rng 1 • C.gen) ↔ (c * (rng 2 - rng 0)) • C.gen = 0 := by
    rw [← sub_eq_zero]
    constructor <;> intro h <;> rw [← h] <;> module
  rw [this]
  constructor
  · rintro ⟨-, h⟩
    rcases mul_eq_zero.1 (smul_left_inj_of_ne hg (h.trans (zero_smul _ _).symm)) with h | h
    · exact .inr (by rw [h])
    · exact .inl (sub_eq_zero.1 h)
  · rintro (h | h)
    · exact ⟨rfl, by rw [h, sub_self, mul_zero, zero_smul]⟩
    · cases h
      exact ⟨rfl, by rw [zero_mul, zero_smul]⟩

/-- **C101** (dlk, malformed commitment). The draws are: the witness, the nonce, the exponent of the new commitment. -/
theorem C101_dlk_commitment (C : Curve G) (hg : C.gen ≠ 0) (H : HashEnv r) (hH : HashTotal H) (rng : Rng r) :
    Returns (Tests.dlkMalformedCommitment C H rng) (rng 2 = rng 1) := by
  obtain ⟨c, hc⟩ := dlk_challenge_ok C H hH C.gen (rng 1 • C.gen)
  obtain ⟨c', hc'⟩ := dlk_challenge_ok C H hH C.gen (rng 2 • C.gen)
  have hp := dlk_prove_eq C H C.gen (rng.drop 1) (rng 0) c hc
  simp only [Tests.dlkMalformedCommitment, DLK.setup, DLK.generatePair, hp, Res.unwrap_ok, Res.bind_ok', mulRepr_eq_smul]
  have h := C39 C H C.gen (rng 0 • C.gen) (rng 2 • C.gen) c (rng 1 - rng 0 * c) c' hc'
  refine returns_congr (returns_unwrap h.1.2 h.2) ?_
  constructor
  · rintro ⟨rfl, h2⟩
    refine (smul_left_inj_of_ne hg ?_).symm
    rw [← h2]; module
  · intro h2
    rw [h2, hc] at hc'
    cases hc'
    refine ⟨rfl, ?_⟩
    rw [h2]; module

/-- **C101** (dlk, malformed challenge). The draws are: the witness, the nonce, the new challenge. -/
theorem C101_dlk_challenge (C : Curve G) (H : HashEnv r) (hH : HashTotal H) (rng : Rng r) :
    Returns (Tests.dlkMalformedChallenge C H rng) (DLK.challenge C H C.gen (rng 1 • C.gen) = .ok (rng 2)) := by
  obtain ⟨c, hc⟩ := dlk_challenge_ok C H hH C.gen (rng 1 • C.gen)
  have hp := dlk_prove_eq C H C.gen (rng.drop 1) (rng 0) c hc
  simp only [Tests.dlkMalformedChallenge, DLK.setup, DLK.generatePair, hp, Res.unwrap_ok, Res.bind_ok', mulRepr_eq_smul]
  have h := C39 C H C.gen (rng 0 • C.gen) (rng 1 • C.gen) (rng 2) (rng 1 - rng 0 * c) c hc
  refine returns_congr (returns_unwrap h.1.2 h.2) ?_
  rw [hc]
  constructor
  · rintro ⟨h, -⟩; rw [h]
  · intro h
    cases h
    exact ⟨rfl, by module⟩

/-- **C101** (dlk, malformed response). The draws are: the witness, the nonce, the new response. -/
theorem C101_dlk_response (C : Curve G) (hg : C.gen ≠ 0) (H : HashEnv r) (rng : Rng r) (c : ZMod r)
    (hc : DLK.challenge C H C.gen (rng 1 • C.gen) = .ok c) :
    Returns (Tests.dlkMalformedResponse C H rng) (rng 2 = rng 1 - rng 0 * c) := by
  have hp := dlk_prove_eq C H C.gen (rng.drop 1) (rng 0) c hc
  simp only [Tests.dlkMalformedResponse, DLK.setup, DLK.generatePair, hp, Res.unwrap_ok, Res.bind_ok', mulRepr_eq_smul]
  have h := C39 C H C.gen (rng 0 • C.gen) (rng 1 • C.gen) c (rng 2) c hc
  refine returns_congr (returns_unwrap h.1.2 h.2) ?_
  constructor
  · rintro ⟨-, h⟩
    refine smul_left_inj_of_ne hg ?_
    rw [sub_smul, ← h]; module
  · intro h
    refine ⟨rfl, ?_⟩
    rw [h]; module

/-- **C101** (dlk, serialization). -/
theorem C101_dlk_serialization (C : Curve G) (hC : C.codec.Lawful) (F : Codec (ZMod r)) (hF : F.Lawful) (H : HashEnv r)
    (hH : HashTotal H) (rng : Rng r) : Passes (Tests.dlkSerialization C F H rng) := by
  obtain ⟨proof, hp⟩ := C36_total C H hH C.gen (rng.drop 1) (rng 0)
  simp only [Passes, Tests.dlkSerialization, DLK.setup, DLK.generatePair, hp, Res.unwrap_ok, Res.bind_ok']
  rw [checkSerialization_ok hC, Res.bind_ok', checkSerialization_ok (prodLawful hF hC), Res.bind_ok',
    checkSerialization_ok (prodLawful hC (prodLawful hF hF))]

/-! ## nizk/dleq/mod.rs -/

section Dleq
variable {G' : Type} [AddCommGroup G'] [DecidableEq G'] [Module (ZMod r) G']

theorem dleq_prove_eq (C : Curve G) (C' : Curve G') (H : HashEnv r) (srs : G × G') (rng : Rng r) (w c : ZMod r)
    (hc : DLEQ.challenge C C' H srs (w • srs.1, w • srs.2) (rng 0 • srs.1, rng 0 • srs.2) = .ok c) :
    DLEQ.prove C C' H srs rng w = .ok (((rng 0 • srs.1, rng 0 • srs.2), c, rng 0 - w * c), rng.drop 1) := by
  simp only [← mulRepr_eq_smul] at hc ⊢
  simp only [DLEQ.prove, hc, Res.bind_ok']

theorem dleq_challenge_ok (C : Curve G) (C' : Curve G') (H : HashEnv r) (hH : HashTotal H) (srs stmnt comm : G × G') :
    ∃ c, DLEQ.challenge C C' H srs stmnt comm = .ok c := hashToField_total (ε := NIZKError) hH dleq_persona_length _

/-- **C101** (dleq, simple). -/
theorem C101_dleq_simple (C : Curve G) (C' : Curve G') (H : HashEnv r) (hH : HashTotal H) (rng : Rng r) :
    Passes (Tests.dleqSimple C C' H rng) := by
  obtain ⟨proof, hp⟩ := C40_total C C' H hH (C.gen, C'.gen) (rng.drop 1) (rng 0)
  have := (C40 C C' H (C.gen, C'.gen) _ _ _ _ hp).2
  simp only [DLEQ.fromWitness] at this
  simp only [Passes, Tests.dleqSimple, DLEQ.setup, DLEQ.generatePair, hp, Res.unwrap_ok, Res.bind_ok', this]

/-- **C101** (dleq, benchmarks). Any number of rounds. -/
theorem C101_dleq_benchmark (C : Curve G) (C' : Curve G') (H : HashEnv r) (hH : HashTotal H) (k : ℕ) (rngs : ℕ → Rng r) :
    Passes (Tests.dleqBenchmark C C' H k rngs) := by
  have h : ∀ l : List ℕ, loop (fun (_ : Unit) i => Tests.dleqSimple C C' H (rngs i)) () l = .ok () := by
    intro l
    induction l with
    | nil => rfl
    | cons a l ih =>
      have := C101_dleq_simple C C' H hH (rngs a)
      unfold Passes at this
      simp only [loop, this, ih]
  unfold Passes Tests.dleqBenchmark
  rw [h, Res.bind_ok']
  exact check_true rfl

/-- **C101** (dleq, wrong statement). The draws are: the witness, the nonce, the second witness. -/
theorem C101_dleq_wrong_statement (C : Curve G) (C' : Curve G') (hg : C.gen ≠ 0) (H : HashEnv r) (rng : Rng r) (c c' : ZMod r)
    (hc : DLEQ.challenge C C' H (C.gen, C'.gen) (rng 0 • C.gen, rng 0 • C'.gen) (rng 1 • C.gen, rng 1 • C'.gen) = .ok c)
    (hc' : DLEQ.challenge C C' H (C.gen, C'.gen) (rng 2 • C.gen, rng 2 • C'.gen) (rng 1 • C.gen, rng 1 • C'.gen) = .ok c') :
    Returns (Tests.dleqWrongStatement C C' H rng) (rng 2 = rng 0 ∨ (c = 0 ∧ c' = 0)) := by
  have hp := dleq_prove_eq C C' H (C.gen, C'.gen) (rng.drop 1) (rng 0) c hc
  simp only [Tests.dleqWrongStatement, DLEQ.setup, DLEQ.generatePair, hp, Res.unwrap_ok, Res.bind_ok', mulRepr_eq_smul]
  have h := C42 C C' H (C.gen, C'.gen) (rng 2 • C.gen, rng 2 • C'.gen) (rng 1 • C.gen, rng 1 • C'.gen) c (rng 1 - rng 0 * c)
    c' hc'
  refine returns_congr (returns_unwrap h.1.2 h.2) ?_
  constructor
  · rintro ⟨rfl, h, -⟩
    have h2 : (c * (rng 2 - rng 0)) • C.gen = 0 := by
      rw [← sub_eq_zero] at h
      rw [← h]; module
    rcases mul_eq_zero.1 (smul_left_inj_of_ne hg (h2.trans (zero_smul _ _).symm)) with h | h
    · exact .inr ⟨h, h⟩
    · exact .inl (sub_eq_zero.1 h)
  · rintro (hw | ⟨rfl, rfl⟩)
    · rw [hw, hc] at hc'
      cases hc'
      refine ⟨rfl, ?_, ?_⟩ <;> simp only [hw] <;> module
    · refine ⟨rfl, ?_, ?_⟩ <;> simp

/-- **C101** (dleq, malformed commitment). The draws are: the witness, the nonce, the exponents of the two new commitments. -/
theorem C101_dleq_commitment (C : Curve G) (C' : Curve G') (hg : C.gen ≠ 0) (hg' : C'.gen ≠ 0) (H : HashEnv r)
    (hH : HashTotal H) (rng : Rng r) :
    Returns (Tests.dleqMalformedCommitment C C' H rng) (rng 2 = rng 1 ∧ rng 3 = rng 1) := by
  obtain ⟨c, hc⟩ := dleq_challenge_ok C C' H hH (C.gen, C'.gen) (rng 0 • C.gen, rng 0 • C'.gen) (rng 1 • C.gen, rng 1 • C'.gen)
  obtain ⟨c', hc'⟩ := dleq_challenge_ok C C' H hH (C.gen, C'.gen) (rng 0 • C.gen, rng 0 • C'.gen)
    (rng 2 • C.gen, rng 3 • C'.gen)
  have hp := dleq_prove_eq C C' H (C.gen, C'.gen) (rng.drop 1) (rng 0) c hc
  simp only [Tests.dleqMalformedCommitment, DLEQ.setup, DLEQ.generatePair, hp, Res.unwrap_ok, Res.bind_ok', mulRepr_eq_smul]
  have h := C42 C C' H (C.gen, C'.gen) (rng 0 • C.gen, rng 0 • C'.gen) (rng 2 • C.gen, rng 3 • C'.gen) c (rng 1 - rng 0 * c)
    c' hc'
  refine returns_congr (returns_unwrap h.1.2 h.2) ?_
  constructor
  · rintro ⟨rfl, h1, h2⟩
    refine ⟨(smul_left_inj_of_ne hg ?_).symm, (smul_left_inj_of_ne hg' ?_).symm⟩
    · simp only at h1
      rw [← h1]; module
    · simp only at h2
      rw [← h2]; module
  · rintro ⟨h1, h2⟩
    rw [h1, h2, hc] at hc'
    cases hc'
    refine ⟨rfl, ?_, ?_⟩ <;> simp only [h1, h2] <;> module

/-- **C101** (dleq, malformed challenge). The draws are: the witness, the nonce, the new challenge. -/
theorem C101_dleq_challenge (C : Curve G) (C' : Curve G') (H : HashEnv r) (hH : HashTotal H) (rng : Rng r) :
    Returns (Tests.dleqMalformedChallenge C C' H rng) (DLEQ.challenge C C' H (C.gen, C'.gen) (rng 0 • C.gen, rng 0 • C'.gen)
      (rng 1 • C.gen, rng 1 • C'.gen) = .ok (rng 2)) := by
  obtain ⟨c, hc⟩ := dleq_challenge_ok C C' H hH (C.gen, C'.gen) (rng 0 • C.gen, rng 0 • C'.gen) (rng 1 • C.gen, rng 1 • C'.gen)
  have hp := dleq_prove_eq C C' H (C.gen, C'.gen) (rng.drop 1) (rng 0) c hc
  simp only [Tests.dleqMalformedChallenge, DLEQ.setup, DLEQ.generatePair, hp, Res.unwrap_ok, Res.bind_ok', mulRepr_eq_smul]
  have h := C42 C C' H (C.gen, C'.gen) (rng 0 • C.gen, rng 0 • C'.gen) (rng 1 • C.gen, rng 1 • C'.gen) (rng 2)
    (rng 1 - rng 0 * c) c hc
  refine returns_congr (returns_unwrap h.1.2 h.2) ?_
  rw [hc]
  constructor
  · rintro ⟨h, -⟩; rw [h]
  · intro h
    have h := Res.ok.inj h
    refine ⟨h.symm, ?_, ?_⟩ <;> simp only <;> module

/-- **C101** (dleq, malformed response). The draws are: the witness, the nonce, the new response. -/
theorem C101_dleq_response (C : Curve G) (C' : Curve G') (hg : C.gen ≠ 0) (H : HashEnv r) (rng : Rng r) (c : ZMod r)
    (hc : DLEQ.challenge C C' H (C.gen, C'.gen) (rng 0 • C.gen, rng 0 • C'.gen) (rng 1 • C.gen, rng 1 • C'.gen) = .ok c) :
    Returns (Tests.dleqMalformedResponse C C' H rng) (rng 2 = rng 1 - rng 0 * c) := by
  have hp := dleq_prove_eq C C' H (C.gen, C'.gen) (rng.drop 1) (rng 0) c hc
  simp only [Tests.dleqMalformedResponse, DLEQ.setup, DLEQ.generatePair, hp, Res.unwrap_ok, Res.bind_ok', mulRepr_eq_smul]
  have h := C42 C C' H (C.gen, C'.gen) (rng 0 • C.gen, rng 0 • C'.gen) (rng 1 • C.gen, rng 1 • C'.gen) c (rng 2) c hc
  refine returns_congr (returns_unwrap h.1.2 h.2) ?_
  constructor
  · rintro ⟨-, h, -⟩
    simp only at h
    refine smul_left_inj_of_ne hg ?_
    rw [sub_smul, ← h]; module
  · intro h
    refine ⟨rfl, ?_, ?_⟩ <;> simp only [h] <;> module

/-- **C101** (dleq, serialization). -/
theorem C101_dleq_serialization (C : Curve G) (C' : Curve G') (hC : C.codec.Lawful) (hC' : C'.codec.Lawful)
    (F : Codec (ZMod r)) (hF : F.Lawful) (H : HashEnv r) (hH : HashTotal H) (rng : Rng r) :
    Passes (Tests.dleqSerialization C C' F H rng) := by
  obtain ⟨proof, hp⟩ := C40_total C C' H hH (C.gen, C'.gen) (rng.drop 1) (rng 0)
  simp only [Passes, Tests.dleqSerialization, DLEQ.setup, DLEQ.generatePair, hp, Res.unwrap_ok, Res.bind_ok']
  rw [checkSerialization_ok (prodLawful hC hC'), Res.bind_ok', checkSerialization_ok (prodLawful hF (prodLawful hC hC')),
    Res.bind_ok', checkSerialization_ok (prodLawful (prodLawful hC hC') (prodLawful hF hF))]

end Dleq

/-! ## signature/schnorr/mod.rs -/

theorem schnorr_sign_eq (C : Curve G) (H : HashEnv r) (g : G) (rng : Rng r) (sk c : ZMod r) (msg : List UInt8)
    (hc : Schnorr.challenge C H g msg (rng 0 • g) = .ok c) :
    Schnorr.sign C H g rng sk msg = .ok ((rng 0 • g, rng 0 - sk * c), rng.drop 1) := by
  rw [← mulRepr_eq_smul] at hc ⊢
  simp only [Schnorr.sign, hc, Res.bind_ok']

/-- **C101** (schnorr, simple). -/
theorem C101_schnorr_simple (C : Curve G) (H : HashEnv r) (hH : HashTotal H) (rng : Rng r) :
    Passes (Tests.schnorrSimple C H rng) := by
  obtain ⟨sig, hs⟩ := C44_total C H hH C.gen (rng.drop 1) (rng 0) (ascii "hello")
  have := (C44 C H C.gen _ _ _ _ _ hs).2
  simp only [Schnorr.fromSk] at this
  simp only [Passes, Tests.schnorrSimple, Schnorr.setup, Schnorr.generateKeypair, hs, Res.unwrap_ok, Res.bind_ok', this]

/-- **C101** (schnorr, wrong public key). The draws are: the key, the nonce, the second key. -/
theorem C101_schnorr_wrong_pk (C : Curve G) (hg : C.gen ≠ 0) (H : HashEnv r) (rng : Rng r) (c : ZMod r)
    (hc : Schnorr.challenge C H C.gen (ascii "hello") (rng 1 • C.gen) = .ok c) :
    Returns (Tests.schnorrWrongPk C H rng) (rng 2 = rng 0 ∨ c = 0) := by
  have hs := schnorr_sign_eq C H C.gen (rng.drop 1) (rng 0) c (ascii "hello") hc
  simp only [Tests.schnorrWrongPk, Schnorr.setup, Schnorr.generateKeypair, hs, Res.unwrap_ok, Res.bind_ok', mulRepr_eq_smul]
  have h := C45 C H C.gen (rng 2 • C.gen) (rng 1 • C.gen) (ascii "hello") (rng 1 - rng 0 * c) c hc
  refine returns_congr (returns_unwrap h.1.2 h.2) ?_
  have : ((rng 1 - rng 0 * c) • C.gen + c • rng 2 • C.gen = rng 1 • C.gen) ↔ (c * (rng 2 - rng 0)) • C.gen = 0 := by
    rw [← sub_eq_zero]
    constructor <;> intro h <;> rw [← h] <;> module
  rw [this]
  constructor
  · intro h
    rcases mul_eq_zero.1 (smul_left_inj_of_ne hg (h.trans (zero_smul _ _).symm)) with h | h
    · exact .inr h
    · exact .inl (sub_eq_zero.1 h)
  · rintro (h | rfl)
    · rw [h, sub_self, mul_zero, zero_smul]
    · rw [zero_mul, zero_smul]

/-- **C101** (schnorr, wrong message). The draws are: the key, the nonce. -/
theorem C101_schnorr_wrong_message (C : Curve G) (hg : C.gen ≠ 0) (H : HashEnv r) (rng : Rng r) (c c' : ZMod r)
    (hc : Schnorr.challenge C H C.gen (ascii "hello") (rng 1 • C.gen) = .ok c)
    (hc' : Schnorr.challenge C H C.gen (ascii "goodbye") (rng 1 • C.gen) = .ok c') :
    Returns (Tests.schnorrWrongMessage C H rng) (rng 0 = 0 ∨ c = c') := by
  have hs := schnorr_sign_eq C H C.gen (rng.drop 1) (rng 0) c (ascii "hello") hc
  simp only [Tests.schnorrWrongMessage, Schnorr.setup, Schnorr.generateKeypair, hs, Res.unwrap_ok, Res.bind_ok',
    mulRepr_eq_smul]
  have h := C45 C H C.gen (rng 0 • C.gen) (rng 1 • C.gen) (ascii "goodbye") (rng 1 - rng 0 * c) c' hc'
  refine returns_congr (returns_unwrap h.1.2 h.2) ?_
  have : ((rng 1 - rng 0 * c) • C.gen + c' • rng 0 • C.gen = rng 1 • C.gen) ↔ (rng 0 * (c' - c)) • C.gen = 0 := by
    rw [← sub_eq_zero]
    constructor <;> intro h <;> rw [← h] <;> module
  rw [this]
  constructor
  · intro h
    rcases mul_eq_zero.1 (smul_left_inj_of_ne hg (h.trans (zero_smul _ _).symm)) with h | h
    · exact .inl h
    · exact .inr (sub_eq_zero.1 h).symm
  · rintro (h | h)
    · rw [h, zero_mul, zero_smul]
    · rw [h, sub_self, mul_zero, zero_smul]

/-- **C101** (schnorr, batch). -/
theorem C101_schnorr_batch (C : Curve G) (H : HashEnv r) (hH : HashTotal H) (rng : Rng r) :
    Passes (Tests.schnorrBatch C H rng) := by
  obtain ⟨sig, hs⟩ := C44_total C H hH C.gen (rng.drop 1) (rng 0) (ascii "hello")
  obtain ⟨sig2, hs2⟩ := C44_total C H hH C.gen (((rng.drop 1).drop 1).drop 1) ((rng.drop 1).drop 1 0) (ascii "hello2")
  have h1 := (C44 C H C.gen _ _ _ _ _ hs).2
  have h2 := (C44 C H C.gen _ _ _ _ _ hs2).2
  simp only [Schnorr.fromSk] at h1 h2
  simp only [Passes, Tests.schnorrBatch, Schnorr.setup, Schnorr.generateKeypair, hs, hs2, Res.unwrap_ok, Res.bind_ok']
  rw [C47 C H C.gen _ _ _ _ rfl rfl]
  · rfl
  · intro i hi
    match i, hi with
    | 0, _ => exact h1
    | 1, _ => exact h2

/-- **C101** (schnorr, serialization). -/
theorem C101_schnorr_serialization (C : Curve G) (hC : C.codec.Lawful) (F : Codec (ZMod r)) (hF : F.Lawful) (H : HashEnv r)
    (hH : HashTotal H) (rng : Rng r) : Passes (Tests.schnorrSerialization C F H rng) := by
  obtain ⟨sig, hs⟩ := C44_total C H hH C.gen (rng.drop 1) (rng 0) (ascii "hello")
  simp only [Passes, Tests.schnorrSerialization, Schnorr.setup, Schnorr.generateKeypair, hs, Res.unwrap_ok, Res.bind_ok']
  rw [checkSerialization_ok hC, Res.bind_ok', checkSerialization_ok (prodLawful hF hC), Res.bind_ok',
    checkSerialization_ok (prodLawful hC hF)]

/-! ### Examples -/

/-- Non-vacuity of C101 (DLK): with the constant challenge 1, the test of a wrong statement panics when the second witness is
another one, and returns when it is the same. -/
example : Tests.dlkWrongStatement (Toy.curve 13) (Toy.constHash 13 1) ([2, 5, 3].getD · 0) = .panic ∧
    Tests.dlkWrongStatement (Toy.curve 13) (Toy.constHash 13 1) ([2, 5, 2].getD · 0) = .ok () := by
  have hg : (Toy.curve 13).gen ≠ 0 := by decide
  refine ⟨(C101_dlk_wrong_statement _ hg _ (fun _ _ => ⟨0, rfl⟩) _).2 ?_, (C101_dlk_wrong_statement _ hg _ (fun _ _ => ⟨0, rfl⟩) _).1 (.inl rfl)⟩
  rintro (h | h)
  · revert h; decide
  · rw [DLK.challenge, constHash_eq 1 _ _ dlk_persona_length] at h
    revert h; decide

/-- The test of a malformed commitment panics for the draws 2, 5, 3. -/
example : Tests.dlkMalformedCommitment (Toy.curve 13) (Toy.constHash 13 1) ([2, 5, 3].getD · 0) = .panic :=
  (C101_dlk_commitment _ (by decide) _ (fun _ _ => ⟨0, rfl⟩) _).2 (by decide)

end Verif
