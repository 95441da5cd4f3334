import Verif.Lemmas.Hash
import Verif.Lemmas.Count
import Verif.Toy
import Mathlib.Tactic.LinearCombination
import Mathlib.Tactic.Module
import Mathlib.Tactic.Abel
import Mathlib.Algebra.Module.Prod

/-!
# NIZK proofs: C36 – C43
-/

open Finset

namespace Verif

set_option linter.unusedSectionVars false

variable {r : ℕ} [Fact r.Prime] {G : Type} [AddCommGroup G] [DecidableEq G] [Module (ZMod r) G]

/-! ## Knowledge of discrete logarithm -/

theorem dlk_persona_length : DLK.persona.length ≤ 8 := by decide

theorem dlk_verify_eq (C : Curve G) (H : HashEnv r) (g stmnt : G) (proof : DLK.Proof r G) {c : ZMod r}
    (hc : DLK.challenge C H g proof.1 = .ok c) :
    DLK.verify C H g stmnt proof =
      if proof.2.2 • g + c • stmnt ≠ proof.1 ∨ c ≠ proof.2.1 then .err .DLKVerify else .ok () := by
  unfold DLK.verify
  rw [hc, Res.bind_ok']
  simp only [mulRepr_eq_smul]

theorem dlk_verify_ok {C : Curve G} {H : HashEnv r} {g stmnt : G} {proof : DLK.Proof r G}
    (h : DLK.verify C H g stmnt proof = .ok ()) :
    DLK.challenge C H g proof.1 = .ok proof.2.1 ∧ proof.2.2 • g + proof.2.1 • stmnt = proof.1 := by
  have h0 := h
  unfold DLK.verify at h
  rw [Res.bind_eq_ok] at h
  obtain ⟨c, hc, _⟩ := h
  rw [dlk_verify_eq C H g stmnt proof hc] at h0
  split at h0
  · cases h0
  · rename_i hn
    push Not at hn
    rw [hc, hn.2]
    exact ⟨rfl, hn.2 ▸ hn.1⟩

/-- **C36**. Every proof `prove` returns for `w` verifies against the statement `w • g`, which is what `from_witness`
publishes. -/
theorem C36 (C : Curve G) (H : HashEnv r) (g : G) (rng rng' : Rng r) (w : ZMod r) (proof : DLK.Proof r G)
    (h : DLK.prove C H g rng w = .ok (proof, rng')) :
    DLK.fromWitness g w = (w, w • g) ∧ DLK.verify C H g (DLK.fromWitness g w).2 proof = .ok () := by
  refine ⟨by simp [DLK.fromWitness, mulRepr_eq_smul], ?_⟩
  unfold DLK.prove at h
  simp only [Res.bind_eq_ok] at h
  obtain ⟨c, hc, h⟩ := h
  cases h
  rw [dlk_verify_eq C H g _ _ hc, if_neg]
  simp only [ne_eq, not_true_eq_false, or_false, not_not, DLK.fromWitness, mulRepr_eq_smul]
  module

/-- **C36** (totality). When the hash loop terminates, `prove` returns a proof. -/
theorem C36_total (C : Curve G) (H : HashEnv r) (hH : HashTotal H) (g : G) (rng : Rng r) (w : ZMod r) :
    ∃ proof, DLK.prove C H g rng w = .ok (proof, rng.drop 1) := by
  obtain ⟨c, hc⟩ := hashToField_total (ε := NIZKError) hH dlk_persona_length
    (C.codec.enc g ++ C.codec.enc (mulRepr g (rng 0)))
  refine ⟨(mulRepr g (rng 0), c, rng 0 - w * c), ?_⟩
  simp only [DLK.prove, DLK.challenge, hc, Res.bind_ok']

/-- Non-vacuity of C36: a proof exists and verifies in the toy instance. -/
example (rng : Rng 13) : ∃ proof, DLK.prove (Toy.curve 13) (Toy.hashEnv 13) (1 : ZMod 13) rng 5 = .ok (proof, rng.drop 1) ∧
    DLK.verify (Toy.curve 13) (Toy.hashEnv 13) (1 : ZMod 13) (5 : ZMod 13) proof = .ok () := by
  obtain ⟨proof, h⟩ := C36_total (Toy.curve 13) (Toy.hashEnv 13) (Toy.hashTotal 13) (1 : ZMod 13) rng 5
  refine ⟨proof, h, ?_⟩
  have := (C36 _ _ _ _ _ _ _ h).2
  simpa [DLK.fromWitness, mulRepr_eq_smul] using this

/-- **C37** (extraction). Two accepting transcripts with the same commitment and different challenges (the hash having been
re-programmed from `H` to `H'`) give the witness by the displayed formula. -/
theorem C37 (C : Curve G) (H H' : HashEnv r) (g stmnt X : G) (c c' z z' : ZMod r)
    (h : DLK.verify C H g stmnt (X, c, z) = .ok ()) (h' : DLK.verify C H' g stmnt (X, c', z') = .ok ())
    (hne : c ≠ c') : stmnt = ((z - z') * (c' - c)⁻¹) • g := by
  have h1 := (dlk_verify_ok h).2
  have h2 := (dlk_verify_ok h').2
  simp only at h1 h2
  have hd : c' - c ≠ 0 := sub_ne_zero.2 (Ne.symm hne)
  have h3 : (c' - c) • stmnt = (z - z') • g := by
    have : z • g + c • stmnt = z' • g + c' • stmnt := by rw [h1, h2]
    linear_combination (norm := module) -this
  rw [mul_comm, mul_smul, ← h3, smul_smul, inv_mul_cancel₀ hd, one_smul]

/-- **C37** (at most one challenge). A statement outside the span of `g` has, for each commitment, at most one challenge
with an accepting proof. -/
theorem C37_unique (C : Curve G) (H H' : HashEnv r) (g stmnt X : G) (hs : ∀ w : ZMod r, stmnt ≠ w • g) (c c' z z' : ZMod r)
    (h : DLK.verify C H g stmnt (X, c, z) = .ok ()) (h' : DLK.verify C H' g stmnt (X, c', z') = .ok ()) : c = c' := by
  by_contra hne
  exact hs _ (C37 C H H' g stmnt X c c' z z' h h' hne)

theorem constHash_eq {ε : Type} (c : ZMod r) (p m : List UInt8) (hp : p.length ≤ 8) :
    (hashToField (Toy.constHash r c) p m : Res ε _) = .ok c := by
  unfold hashToField
  rw [if_neg (by omega)]
  rcases firstSome_cases (ε := ε) (fun k => (Toy.constHash r c).frFromRandom
      (block ((Toy.constHash r c).stream (padPersona p) m) (Toy.constHash r c).frSize k)) with ⟨k, a, h1, _, h⟩ | ⟨h, _⟩
  · have : c = a := by simpa [Toy.constHash] using h1
    rw [this]; exact this ▸ h
  · have := h 0
    simp [Toy.constHash] at this

/-- Non-vacuity of C37: two accepting transcripts for `5 = 5 • 1` with commitment 3 and challenges 1 and 2. -/
example : DLK.verify (Toy.curve 13) (Toy.constHash 13 1) (1 : ZMod 13) 5 (3, 1, 11) = .ok () ∧
    DLK.verify (Toy.curve 13) (Toy.constHash 13 2) (1 : ZMod 13) 5 (3, 2, 6) = .ok () := by
  constructor
  · rw [dlk_verify_eq _ _ _ _ _ (constHash_eq 1 _ _ dlk_persona_length)]; decide
  · rw [dlk_verify_eq _ _ _ _ _ (constHash_eq 2 _ _ dlk_persona_length)]; decide

/-! ### C38: the challenge does not bind the statement

The full claim, in a form that can be checked: an accepted proof implies that the statement is a known multiple of `g`
(weakest form: that it is a multiple at all). -/

/-- The weakest form of the claim of C38: statements of accepted proofs have a discrete logarithm. -/
def C38_claim (C : Curve G) (H : HashEnv r) (g : G) : Prop :=
  ∀ (stmnt : G) (proof : DLK.Proof r G), DLK.verify C H g stmnt proof = .ok () → ∃ w : ZMod r, stmnt = w • g

/-- **C38 is false of the code**: whoever picks any commitment `X` (of unknown discrete logarithm) and any response `z`,
and reads off the challenge `c`, has an accepting proof for `c⁻¹ (X − z g)`, a statement whose discrete logarithm
determines that of `X`. -/
theorem C38_forge (C : Curve G) (H : HashEnv r) (g X : G) (z c : ZMod r) (hc : DLK.challenge C H g X = .ok c) (h0 : c ≠ 0) :
    DLK.verify C H g (c⁻¹ • (X - z • g)) (X, c, z) = .ok () ∧
    ∀ w : ZMod r, c⁻¹ • (X - z • g) = w • g → X = (c * w + z) • g := by
  constructor
  · rw [dlk_verify_eq C H g _ (X, c, z) hc, if_neg]
    simp only [ne_eq, not_true_eq_false, or_false, not_not]
    rw [smul_smul, mul_inv_cancel₀ h0, one_smul]
    abel
  · intro w hw
    have := congrArg (c • ·) hw
    simp only [smul_smul, mul_inv_cancel₀ h0, one_smul] at this
    rw [add_smul, ← this]
    abel

/-- **C38 negated** with a concrete witness: in `ZMod 13 × ZMod 13` a statement that is no multiple of `g = (1, 0)` at all has
an accepting proof. -/
theorem C38_false : ¬ C38_claim (r := 13) (G := ZMod 13 × ZMod 13) ⟨(1, 0), ⟨fun _ => [], fun _ => .panic⟩⟩
    (Toy.constHash 13 2) (1, 0) := by
  intro h
  have hc : DLK.challenge (r := 13) (⟨(1, 0), ⟨fun _ => [], fun _ => .panic⟩⟩ : Curve (ZMod 13 × ZMod 13))
      (Toy.constHash 13 2) (1, 0) (0, 1) = .ok 2 := constHash_eq 2 _ _ dlk_persona_length
  obtain ⟨w, hw⟩ := h _ _ (C38_forge _ _ (1, 0) (0, 1) 0 2 hc (by decide)).1
  have := (C38_forge _ _ (1, 0) (0, 1) 0 2 hc (by decide)).2 w hw
  have h2 := congrArg Prod.snd this
  simp at h2

open Classical in
/-- **C38, the part that holds**: for a statement fixed before the challenge is known and without a discrete logarithm, and for
any commitment, at most one of the `r` challenge values admits an accepting response. Missing: protection against provers
choosing the statement after the challenge (`C38_forge`). -/
theorem C38_partial (C : Curve G) (g stmnt X : G) (hs : ∀ w : ZMod r, stmnt ≠ w • g) :
    (univ.filter fun c : ZMod r => ∃ (H : HashEnv r) (z : ZMod r), DLK.verify C H g stmnt (X, c, z) = .ok ()).card ≤ 1 := by
  rw [card_le_one]
  intro c hc c' hc'
  simp only [mem_filter, mem_univ, true_and] at hc hc'
  obtain ⟨H, z, h⟩ := hc
  obtain ⟨H', z', h'⟩ := hc'
  exact C37_unique C H H' g stmnt X hs c c' z z' h h'

/-- Non-vacuity of C38_partial: `(0, 1)` is no multiple of `(1, 0)`. -/
example : ∀ w : ZMod 13, ((0, 1) : ZMod 13 × ZMod 13) ≠ w • (1, 0) := by
  intro w h
  have := congrArg Prod.snd h
  simp at this

/-! ### C39 -/

/-- **C39** (exactness). With `c` the hash of `g ‖ g_r`, `verify` is `Ok` iff the stored challenge is `c` and
`z g + c stmnt` is the commitment, and otherwise `DLKVerify`. -/
theorem C39 (C : Curve G) (H : HashEnv r) (g stmnt X : G) (ch z c : ZMod r) (hc : DLK.challenge C H g X = .ok c) :
    (DLK.verify C H g stmnt (X, ch, z) = .ok () ↔ ch = c ∧ z • g + c • stmnt = X) ∧
    (¬ (ch = c ∧ z • g + c • stmnt = X) → DLK.verify C H g stmnt (X, ch, z) = .err .DLKVerify) := by
  rw [dlk_verify_eq C H g stmnt (X, ch, z) hc]
  simp only
  constructor
  · split
    · rename_i h
      constructor
      · intro h'; cases h'
      · rintro ⟨rfl, h2⟩
        rcases h with h | h
        · exact absurd h2 h
        · exact absurd rfl h
    · rename_i h
      push Not at h
      exact ⟨fun _ => ⟨h.2.symm, h.1⟩, fun _ => rfl⟩
  · intro h
    rw [if_pos]
    by_contra hn
    push Not at hn
    exact h ⟨hn.2.symm, hn.1⟩

/-- **C39** (changed challenge). -/
theorem C39_challenge (C : Curve G) (H : HashEnv r) (g stmnt X : G) (ch ch' z : ZMod r)
    (h : DLK.verify C H g stmnt (X, ch, z) = .ok ()) (hne : ch' ≠ ch) :
    DLK.verify C H g stmnt (X, ch', z) = .err .DLKVerify := by
  have h1 := dlk_verify_ok h
  refine (C39 C H g stmnt X ch' z ch h1.1).2 fun h2 => hne h2.1

/-- **C39** (changed response). -/
theorem C39_response (C : Curve G) (H : HashEnv r) (g stmnt X : G) (hg : g ≠ 0) (ch z z' : ZMod r)
    (h : DLK.verify C H g stmnt (X, ch, z) = .ok ()) (hne : z' ≠ z) :
    DLK.verify C H g stmnt (X, ch, z') = .err .DLKVerify := by
  have h1 := dlk_verify_ok h
  refine (C39 C H g stmnt X ch z' ch h1.1).2 fun h2 => hne ?_
  have h3 := h1.2
  simp only at h3
  refine smul_left_inj_of_ne hg ?_
  have := h2.2.trans h3.symm
  exact add_right_cancel this

/-- **C39** (changed statement). -/
theorem C39_statement (C : Curve G) (H : HashEnv r) (g stmnt stmnt' X : G) (ch z : ZMod r) (hch : ch ≠ 0)
    (h : DLK.verify C H g stmnt (X, ch, z) = .ok ()) (hne : stmnt' ≠ stmnt) :
    DLK.verify C H g stmnt' (X, ch, z) = .err .DLKVerify := by
  have h1 := dlk_verify_ok h
  refine (C39 C H g stmnt' X ch z ch h1.1).2 fun h2 => hne ?_
  have h3 := h1.2
  simp only at h3
  have h4 : ch • stmnt' = ch • stmnt := add_left_cancel (h2.2.trans h3.symm)
  have := congrArg (ch⁻¹ • ·) h4
  simpa [smul_smul, inv_mul_cancel₀ hch] using this

/-- Non-vacuity of C39: an accepted proof, then each field changed. -/
example : DLK.verify (Toy.curve 13) (Toy.constHash 13 1) (1 : ZMod 13) 5 (3, 1, 11) = .ok () ∧
    DLK.verify (Toy.curve 13) (Toy.constHash 13 1) (1 : ZMod 13) 5 (3, 2, 11) = .err .DLKVerify ∧
    DLK.verify (Toy.curve 13) (Toy.constHash 13 1) (1 : ZMod 13) 5 (3, 1, 10) = .err .DLKVerify ∧
    DLK.verify (Toy.curve 13) (Toy.constHash 13 1) (1 : ZMod 13) 6 (3, 1, 11) = .err .DLKVerify := by
  have h : DLK.verify (Toy.curve 13) (Toy.constHash 13 1) (1 : ZMod 13) 5 (3, 1, 11) = .ok () := by
    rw [dlk_verify_eq _ _ _ _ _ (constHash_eq 1 _ _ dlk_persona_length)]; decide
  exact ⟨h, C39_challenge _ _ _ _ _ _ _ _ h (by decide), C39_response _ _ _ _ _ (by decide) _ _ _ h (by decide),
    C39_statement _ _ _ _ _ _ _ _ (by decide) h (by decide)⟩

/-! ## Equality of discrete logarithms -/

section DLEQ
variable {G' : Type} [AddCommGroup G'] [DecidableEq G'] [Module (ZMod r) G']

theorem dleq_persona_length : DLEQ.persona.length ≤ 8 := by decide

theorem dleq_verify_eq (C1 : Curve G) (C2 : Curve G') (H : HashEnv r) (srs stmnt : G × G') (proof : DLEQ.Proof r G G')
    {c : ZMod r} (hc : DLEQ.challenge C1 C2 H srs stmnt proof.1 = .ok c) :
    DLEQ.verify C1 C2 H srs stmnt proof =
      if proof.2.2 • srs.1 + c • stmnt.1 ≠ proof.1.1 ∨ proof.2.2 • srs.2 + c • stmnt.2 ≠ proof.1.2 ∨ c ≠ proof.2.1
      then .err .DLEQVerify else .ok () := by
  unfold DLEQ.verify
  rw [hc, Res.bind_ok']
  simp only [mulRepr_eq_smul]

theorem dleq_verify_ok {C1 : Curve G} {C2 : Curve G'} {H : HashEnv r} {srs stmnt : G × G'} {proof : DLEQ.Proof r G G'}
    (h : DLEQ.verify C1 C2 H srs stmnt proof = .ok ()) :
    DLEQ.challenge C1 C2 H srs stmnt proof.1 = .ok proof.2.1 ∧
    proof.2.2 • srs.1 + proof.2.1 • stmnt.1 = proof.1.1 ∧ proof.2.2 • srs.2 + proof.2.1 • stmnt.2 = proof.1.2 := by
  have h0 := h
  unfold DLEQ.verify at h
  rw [Res.bind_eq_ok] at h
  obtain ⟨c, hc, _⟩ := h
  rw [dleq_verify_eq C1 C2 H srs stmnt proof hc] at h0
  split at h0
  · cases h0
  · rename_i hn
    push Not at hn
    rw [hc, hn.2.2]
    exact ⟨rfl, hn.2.2 ▸ hn.1, hn.2.2 ▸ hn.2.1⟩

/-- **C40**. Every proof `prove` returns for `w` verifies against `(w • g, w • h)`. -/
theorem C40 (C1 : Curve G) (C2 : Curve G') (H : HashEnv r) (srs : G × G') (rng rng' : Rng r) (w : ZMod r)
    (proof : DLEQ.Proof r G G') (h : DLEQ.prove C1 C2 H srs rng w = .ok (proof, rng')) :
    DLEQ.fromWitness srs w = (w, (w • srs.1, w • srs.2)) ∧
    DLEQ.verify C1 C2 H srs (DLEQ.fromWitness srs w).2 proof = .ok () := by
  refine ⟨by simp [DLEQ.fromWitness, mulRepr_eq_smul], ?_⟩
  unfold DLEQ.prove at h
  simp only [Res.bind_eq_ok] at h
  obtain ⟨c, hc, h⟩ := h
  obtain ⟨rfl, -⟩ := Prod.mk.inj (Res.ok.inj h)
  have hv := dleq_verify_eq C1 C2 H srs (mulRepr srs.1 w, mulRepr srs.2 w)
    ((mulRepr srs.1 (rng 0), mulRepr srs.2 (rng 0)), c, rng 0 - w * c) hc
  have e1 : (rng 0 - w * c) • srs.1 + c • (w • srs.1) = rng 0 • srs.1 := by module
  have e2 : (rng 0 - w * c) • srs.2 + c • (w • srs.2) = rng 0 • srs.2 := by module
  refine hv.trans (if_neg ?_)
  simp only [mulRepr_eq_smul, e1, e2]
  simp

/-- **C40** (totality). -/
theorem C40_total (C1 : Curve G) (C2 : Curve G') (H : HashEnv r) (hH : HashTotal H) (srs : G × G') (rng : Rng r)
    (w : ZMod r) : ∃ proof, DLEQ.prove C1 C2 H srs rng w = .ok (proof, rng.drop 1) := by
  obtain ⟨c, hc⟩ := hashToField_total (ε := NIZKError) hH dleq_persona_length
    (DLEQ.hashInput C1 C2 srs (mulRepr srs.1 w, mulRepr srs.2 w) (mulRepr srs.1 (rng 0), mulRepr srs.2 (rng 0)))
  refine ⟨((mulRepr srs.1 (rng 0), mulRepr srs.2 (rng 0)), c, rng 0 - w * c), ?_⟩
  simp only [DLEQ.prove, DLEQ.challenge, hc, Res.bind_ok']

/-- Non-vacuity of C40. -/
example (rng : Rng 13) : ∃ proof, DLEQ.verify (Toy.curve 13) (Toy.curve 13) (Toy.hashEnv 13) ((1, 2) : ZMod 13 × ZMod 13)
    (5, 10) proof = .ok () := by
  obtain ⟨proof, h⟩ := C40_total (Toy.curve 13) (Toy.curve 13) (Toy.hashEnv 13) (Toy.hashTotal 13)
    ((1, 2) : ZMod 13 × ZMod 13) rng 5
  refine ⟨proof, ?_⟩
  have := C40 _ _ _ _ _ _ _ _ h
  rw [this.1] at this
  exact this.2

/-- **C41** (extraction). Two accepting transcripts with equal commitments and different challenges give one witness for both
components. -/
theorem C41 (C1 : Curve G) (C2 : Curve G') (H H' : HashEnv r) (srs stmnt comm : G × G') (c c' z z' : ZMod r)
    (h : DLEQ.verify C1 C2 H srs stmnt (comm, c, z) = .ok ()) (h' : DLEQ.verify C1 C2 H' srs stmnt (comm, c', z') = .ok ())
    (hne : c ≠ c') :
    stmnt.1 = ((z - z') * (c' - c)⁻¹) • srs.1 ∧ stmnt.2 = ((z - z') * (c' - c)⁻¹) • srs.2 := by
  obtain ⟨_, h1, h2⟩ := dleq_verify_ok h
  obtain ⟨_, h1', h2'⟩ := dleq_verify_ok h'
  simp only at h1 h2 h1' h2'
  have hd : c' - c ≠ 0 := sub_ne_zero.2 (Ne.symm hne)
  constructor
  · have h3 : (c' - c) • stmnt.1 = (z - z') • srs.1 := by
      have : z • srs.1 + c • stmnt.1 = z' • srs.1 + c' • stmnt.1 := by rw [h1, h1']
      linear_combination (norm := module) -this
    rw [mul_comm, mul_smul, ← h3, smul_smul, inv_mul_cancel₀ hd, one_smul]
  · have h3 : (c' - c) • stmnt.2 = (z - z') • srs.2 := by
      have : z • srs.2 + c • stmnt.2 = z' • srs.2 + c' • stmnt.2 := by rw [h2, h2']
      linear_combination (norm := module) -this
    rw [mul_comm, mul_smul, ← h3, smul_smul, inv_mul_cancel₀ hd, one_smul]

open Classical in
/-- **C41** (false statements). If no `w` satisfies `stmnt = (w g, w h)`, at most one challenge value is accepting for given
commitments. -/
theorem C41_unique (C1 : Curve G) (C2 : Curve G') (srs stmnt comm : G × G')
    (hs : ∀ w : ZMod r, stmnt ≠ (w • srs.1, w • srs.2)) :
    (univ.filter fun c : ZMod r => ∃ (H : HashEnv r) (z : ZMod r),
      DLEQ.verify C1 C2 H srs stmnt (comm, c, z) = .ok ()).card ≤ 1 := by
  rw [card_le_one]
  intro c hc c' hc'
  simp only [mem_filter, mem_univ, true_and] at hc hc'
  obtain ⟨H, z, h⟩ := hc
  obtain ⟨H', z', h'⟩ := hc'
  by_contra hne
  have := C41 C1 C2 H H' srs stmnt comm c c' z z' h h' hne
  exact hs _ (Prod.ext this.1 this.2)

/-- **C41** (binding). The challenge hash input determines generators, statement and commitments. -/
theorem C41_binding (C1 : Curve G) (C2 : Curve G') (h1 : C1.codec.Lawful) (h2 : C2.codec.Lawful)
    (srs stmnt comm srs' stmnt' comm' : G × G')
    (h : DLEQ.hashInput C1 C2 srs stmnt comm = DLEQ.hashInput C1 C2 srs' stmnt' comm') :
    srs = srs' ∧ stmnt = stmnt' ∧ comm = comm' := by
  unfold DLEQ.hashInput at h
  obtain ⟨e1, h⟩ := h1.append_inj h
  obtain ⟨e2, h⟩ := h1.append_inj h
  obtain ⟨e3, h⟩ := h2.append_inj h
  obtain ⟨e4, h⟩ := h2.append_inj h
  obtain ⟨e5, h⟩ := h1.append_inj h
  have e6 := h2.inj h
  exact ⟨Prod.ext e1 e3, Prod.ext e2 e4, Prod.ext e5 e6⟩

/-- Non-vacuity of C41: `(5, 11)` is not `(w • 1, w • 2)`; and two accepting transcripts for `(5, 10)`. -/
example : (∀ w : ZMod 13, ((5, 11) : ZMod 13 × ZMod 13) ≠ (w • 1, w • 2)) ∧
    DLEQ.verify (Toy.curve 13) (Toy.curve 13) (Toy.constHash 13 1) ((1, 2) : ZMod 13 × ZMod 13) (5, 10) ((3, 6), 1, 11)
      = .ok () ∧
    DLEQ.verify (Toy.curve 13) (Toy.curve 13) (Toy.constHash 13 2) ((1, 2) : ZMod 13 × ZMod 13) (5, 10) ((3, 6), 2, 6)
      = .ok () := by
  refine ⟨by decide, ?_, ?_⟩
  · rw [dleq_verify_eq _ _ _ _ _ _ (constHash_eq 1 _ _ dleq_persona_length)]; decide
  · rw [dleq_verify_eq _ _ _ _ _ _ (constHash_eq 2 _ _ dleq_persona_length)]; decide

/-- **C42** (exactness). -/
theorem C42 (C1 : Curve G) (C2 : Curve G') (H : HashEnv r) (srs stmnt comm : G × G') (ch z c : ZMod r)
    (hc : DLEQ.challenge C1 C2 H srs stmnt comm = .ok c) :
    (DLEQ.verify C1 C2 H srs stmnt (comm, ch, z) = .ok () ↔
      ch = c ∧ z • srs.1 + c • stmnt.1 = comm.1 ∧ z • srs.2 + c • stmnt.2 = comm.2) ∧
    (¬ (ch = c ∧ z • srs.1 + c • stmnt.1 = comm.1 ∧ z • srs.2 + c • stmnt.2 = comm.2) →
      DLEQ.verify C1 C2 H srs stmnt (comm, ch, z) = .err .DLEQVerify) := by
  rw [dleq_verify_eq C1 C2 H srs stmnt (comm, ch, z) hc]
  simp only
  constructor
  · split
    · rename_i h
      constructor
      · intro h'; cases h'
      · rintro ⟨rfl, h2, h3⟩
        rcases h with h | h | h
        · exact absurd h2 h
        · exact absurd h3 h
        · exact absurd rfl h
    · rename_i h
      push Not at h
      exact ⟨fun _ => ⟨h.2.2.symm, h.1, h.2.1⟩, fun _ => rfl⟩
  · intro h
    rw [if_pos]
    by_contra hn
    push Not at hn
    exact h ⟨hn.2.2.symm, hn.1, hn.2.1⟩

/-- **C42** (changed challenge). -/
theorem C42_challenge (C1 : Curve G) (C2 : Curve G') (H : HashEnv r) (srs stmnt comm : G × G') (ch ch' z : ZMod r)
    (h : DLEQ.verify C1 C2 H srs stmnt (comm, ch, z) = .ok ()) (hne : ch' ≠ ch) :
    DLEQ.verify C1 C2 H srs stmnt (comm, ch', z) = .err .DLEQVerify :=
  (C42 C1 C2 H srs stmnt comm ch' z ch (dleq_verify_ok h).1).2 fun h2 => hne h2.1

/-- **C42** (changed response), if one of the generators is non-zero. -/
theorem C42_response (C1 : Curve G) (C2 : Curve G') (H : HashEnv r) (srs stmnt comm : G × G') (ch z z' : ZMod r)
    (hg : srs.1 ≠ 0 ∨ srs.2 ≠ 0) (h : DLEQ.verify C1 C2 H srs stmnt (comm, ch, z) = .ok ()) (hne : z' ≠ z) :
    DLEQ.verify C1 C2 H srs stmnt (comm, ch, z') = .err .DLEQVerify := by
  obtain ⟨h1, h2, h3⟩ := dleq_verify_ok h
  simp only at h2 h3
  refine (C42 C1 C2 H srs stmnt comm ch z' ch h1).2 fun h4 => hne ?_
  rcases hg with hg | hg
  · exact smul_left_inj_of_ne hg (add_right_cancel (h4.2.1.trans h2.symm))
  · exact smul_left_inj_of_ne hg (add_right_cancel (h4.2.2.trans h3.symm))

/-- Non-vacuity of C42. -/
example : DLEQ.verify (Toy.curve 13) (Toy.curve 13) (Toy.constHash 13 1) ((1, 2) : ZMod 13 × ZMod 13) (5, 10) ((3, 6), 1, 11)
      = .ok () ∧
    DLEQ.verify (Toy.curve 13) (Toy.curve 13) (Toy.constHash 13 1) ((1, 2) : ZMod 13 × ZMod 13) (5, 10) ((3, 6), 1, 12)
      = .err .DLEQVerify := by
  have h : DLEQ.verify (Toy.curve 13) (Toy.curve 13) (Toy.constHash 13 1) ((1, 2) : ZMod 13 × ZMod 13) (5, 10)
      ((3, 6), 1, 11) = .ok () := by
    rw [dleq_verify_eq _ _ _ _ _ _ (constHash_eq 1 _ _ dleq_persona_length)]; decide
  exact ⟨h, C42_response _ _ _ _ _ _ _ _ _ (by decide) h (by decide)⟩

end DLEQ

/-! ## Decomposition proofs -/
section Decomp
variable {G1 G2 K : Type} [AddCommGroup G1] [DecidableEq G1] [AddCommGroup G2] [DecidableEq G2] [Module (ZMod r) G2]

/-- **C43** (completeness). A generated decomposition proof has `gs = p_0 • g2` and verifies under the same configuration. -/
theorem C43 (S : Suite r G1 G2 K) (rng rng' : Rng r) (cfg : Config G1 G2) (p0 : ZMod r) (d : DecompProof r G2)
    (h : Decomp.generate S rng cfg p0 = .ok (d, rng')) :
    d.gs = p0 • cfg.srs.g2 ∧ d.verify S cfg = .ok () := by
  unfold Decomp.generate at h
  simp only [Res.bind_eq_ok] at h
  obtain ⟨⟨proof, rng''⟩, h1, h⟩ := h
  cases h
  rw [Res.unwrap_eq_ok] at h1
  have h2 := C36 S.c2 S.hash cfg.srs.g2 rng _ p0 proof h1
  rw [h2.1] at h2
  simp only [mulRepr_eq_smul, DecompProof.verify]
  rw [h2.2]
  exact ⟨trivial, rfl⟩

/-- **C43** (totality). -/
theorem C43_total (S : Suite r G1 G2 K) (hH : HashTotal S.hash) (rng : Rng r) (cfg : Config G1 G2) (p0 : ZMod r) :
    ∃ d, Decomp.generate S rng cfg p0 = .ok (d, rng.drop 1) := by
  obtain ⟨proof, h⟩ := C36_total S.c2 S.hash hH cfg.srs.g2 rng p0
  refine ⟨⟨proof, mulRepr cfg.srs.g2 p0⟩, ?_⟩
  unfold Decomp.generate
  rw [h]
  rfl

/-- **C43** (errors). Whenever the hash loop terminates, `verify` returns `Ok` or `NIZKProofDoesNotVerifyError`. -/
theorem C43_err (S : Suite r G1 G2 K) (hH : HashTotal S.hash) (cfg : Config G1 G2) (d : DecompProof r G2) :
    d.verify S cfg = .ok () ∨ d.verify S cfg = .err .NIZKProofDoesNotVerifyError := by
  obtain ⟨c, hc⟩ := hashToField_total (ε := NIZKError) hH dlk_persona_length
    (S.c2.codec.enc cfg.srs.g2 ++ S.c2.codec.enc d.proof.1)
  unfold DecompProof.verify
  rw [dlk_verify_eq S.c2 S.hash cfg.srs.g2 d.gs d.proof hc]
  split
  · exact Or.inr rfl
  · exact Or.inl rfl

/-- **C43** (digest). The digest is the SHAKE256 prefix of exactly the wire serialization of the proof; two proofs with one
digest are equal unless their serializations collide. -/
theorem C43_digest (S : Suite r G1 G2 K) {n1 n2 nf : ℕ} (hC : CodecLaws S n1 n2 nf) (d d' : DecompProof r G2) :
    (d.digest S).bytes = S.shake (messageFromPi S d) ∧
    (d.digest S = d'.digest S → d = d' ∨
      (messageFromPi S d ≠ messageFromPi S d' ∧ S.shake (messageFromPi S d) = S.shake (messageFromPi S d'))) := by
  refine ⟨rfl, fun h => ?_⟩
  by_cases he : messageFromPi S d = messageFromPi S d'
  · exact Or.inl ((decompProof_lawful hC).inj he)
  · exact Or.inr ⟨he, congrArg Digest.bytes h⟩

/-- Non-vacuity of C43. -/
example (rng : Rng 13) : ∃ d, Decomp.generate (Toy.suite 13) rng ⟨⟨1, 2, 3⟩, 1, 3⟩ 5 = .ok (d, rng.drop 1) ∧
    d.gs = 10 ∧ d.verify (Toy.suite 13) (⟨⟨1, 2, 3⟩, 1, 3⟩ : Config (ZMod 13) (ZMod 13)) = .ok () := by
  obtain ⟨d, h⟩ := C43_total (Toy.suite 13) (Toy.hashTotal 13) rng (⟨⟨1, 2, 3⟩, 1, 3⟩ : Config (ZMod 13) (ZMod 13)) 5
  have h2 := C43 _ _ _ _ _ _ h
  exact ⟨d, h, h2.1.trans (by decide), h2.2⟩

end Decomp
end Verif
