import Verif.Model.Schnorr
import Verif.Lemmas.Hash
import Verif.Lemmas.Count
import Verif.Lemmas.Poly
import Verif.Toy
import Mathlib.Tactic.LinearCombination
import Mathlib.Tactic.Module
import Mathlib.Tactic.Abel
import Mathlib.Algebra.Polynomial.Roots
import Mathlib.LinearAlgebra.Dual.Lemmas

/-!
# Schnorr signatures: C44 – C49
-/

open Finset Polynomial

namespace Verif

set_option linter.unusedSectionVars false

variable {r : ℕ} [Fact r.Prime] {G : Type} [AddCommGroup G] [DecidableEq G] [Module (ZMod r) G]

theorem schnorr_persona_length : Schnorr.persona.length ≤ 8 := by decide

theorem schnorr_verify_eq (C : Curve G) (H : HashEnv r) (g pk : G) (msg : List UInt8) (sig : Schnorr.Sig r G) {c : ZMod r}
    (hc : Schnorr.challenge C H g msg sig.1 = .ok c) :
    Schnorr.verify C H g pk msg sig = if sig.2 • g + c • pk ≠ sig.1 then .err .SchnorrVerify else .ok () := by
  unfold Schnorr.verify
  rw [hc, Res.bind_ok']
  simp only [mulRepr_eq_smul]

theorem schnorr_verify_ok {C : Curve G} {H : HashEnv r} {g pk : G} {msg : List UInt8} {sig : Schnorr.Sig r G}
    (h : Schnorr.verify C H g pk msg sig = .ok ()) :
    ∃ c, Schnorr.challenge C H g msg sig.1 = .ok c ∧ sig.2 • g + c • pk = sig.1 := by
  have h0 := h
  unfold Schnorr.verify at h
  rw [Res.bind_eq_ok] at h
  obtain ⟨c, hc, _⟩ := h
  rw [schnorr_verify_eq C H g pk msg sig hc] at h0
  split at h0
  · cases h0
  · rename_i hn
    exact ⟨c, hc, not_not.1 hn⟩

/-! ### C44 -/

/-- **C44**. Every signature returned by `sign` verifies under the public key `sk • g` of `from_sk`. -/
theorem C44 (C : Curve G) (H : HashEnv r) (g : G) (rng rng' : Rng r) (sk : ZMod r) (msg : List UInt8)
    (sig : Schnorr.Sig r G) (h : Schnorr.sign C H g rng sk msg = .ok (sig, rng')) :
    Schnorr.fromSk g sk = (sk, sk • g) ∧ Schnorr.verify C H g (Schnorr.fromSk g sk).2 msg sig = .ok () := by
  refine ⟨by simp [Schnorr.fromSk, mulRepr_eq_smul], ?_⟩
  unfold Schnorr.sign at h
  simp only [Res.bind_eq_ok] at h
  obtain ⟨c, hc, h⟩ := h
  obtain ⟨rfl, -⟩ := Prod.mk.inj (Res.ok.inj h)
  rw [schnorr_verify_eq C H g _ msg _ hc, if_neg]
  simp only [not_not, Schnorr.fromSk, mulRepr_eq_smul]
  module

/-- **C44** (totality). -/
theorem C44_total (C : Curve G) (H : HashEnv r) (hH : HashTotal H) (g : G) (rng : Rng r) (sk : ZMod r) (msg : List UInt8) :
    ∃ sig, Schnorr.sign C H g rng sk msg = .ok (sig, rng.drop 1) := by
  obtain ⟨c, hc⟩ := hashToField_total (ε := SignatureError) hH schnorr_persona_length
    (Schnorr.hashInput C g msg (mulRepr g (rng 0)))
  refine ⟨(mulRepr g (rng 0), rng 0 - sk * c), ?_⟩
  simp only [Schnorr.sign, Schnorr.challenge, hc, Res.bind_ok']

/-- Non-vacuity of C44 (a three-byte message). -/
example (rng : Rng 13) : ∃ sig, Schnorr.sign (Toy.curve 13) (Toy.hashEnv 13) (1 : ZMod 13) rng 5 [1, 2, 3]
      = .ok (sig, rng.drop 1) ∧
    Schnorr.verify (Toy.curve 13) (Toy.hashEnv 13) (1 : ZMod 13) 5 [1, 2, 3] sig = .ok () := by
  obtain ⟨sig, h⟩ := C44_total (Toy.curve 13) (Toy.hashEnv 13) (Toy.hashTotal 13) (1 : ZMod 13) rng 5 [1, 2, 3]
  refine ⟨sig, h, ?_⟩
  simpa [Schnorr.fromSk, mulRepr_eq_smul] using (C44 _ _ _ _ _ _ _ _ h).2

/-! ### C45 -/

/-- **C45** (exactness). -/
theorem C45 (C : Curve G) (H : HashEnv r) (g pk v : G) (msg : List UInt8) (s c : ZMod r)
    (hc : Schnorr.challenge C H g msg v = .ok c) :
    (Schnorr.verify C H g pk msg (v, s) = .ok () ↔ s • g + c • pk = v) ∧
    (s • g + c • pk ≠ v → Schnorr.verify C H g pk msg (v, s) = .err .SchnorrVerify) := by
  rw [schnorr_verify_eq C H g pk msg (v, s) hc]
  constructor
  · split
    · rename_i h; exact ⟨fun h' => (by cases h'), fun h' => absurd h' h⟩
    · rename_i h; exact ⟨fun _ => not_not.1 h, fun _ => rfl⟩
  · intro h; rw [if_pos h]

/-- **C45** (nonce reuse). Two valid signatures with the same commitment and different challenges reveal the secret key. -/
theorem C45_nonce_reuse (C : Curve G) (H H' : HashEnv r) (g pk v : G) (msg msg' : List UInt8) (s s' c c' : ZMod r)
    (hc : Schnorr.challenge C H g msg v = .ok c) (hc' : Schnorr.challenge C H' g msg' v = .ok c') (hne : c ≠ c')
    (h : Schnorr.verify C H g pk msg (v, s) = .ok ()) (h' : Schnorr.verify C H' g pk msg' (v, s') = .ok ()) :
    pk = ((s - s') * (c' - c)⁻¹) • g := by
  have h1 := (C45 C H g pk v msg s c hc).1.1 h
  have h2 := (C45 C H' g pk v msg' s' c' hc').1.1 h'
  have hd : c' - c ≠ 0 := sub_ne_zero.2 (Ne.symm hne)
  have h3 : (c' - c) • pk = (s - s') • g := by
    have : s • g + c • pk = s' • g + c' • pk := by rw [h1, h2]
    linear_combination (norm := module) -this
  rw [mul_comm, mul_smul, ← h3, smul_smul, inv_mul_cancel₀ hd, one_smul]

/-- **C45** (one key per message). With a non-zero challenge a signature on a message verifies under at most one key. -/
theorem C45_key_unique (C : Curve G) (H : HashEnv r) (g pk pk' v : G) (msg : List UInt8) (s c : ZMod r)
    (hc : Schnorr.challenge C H g msg v = .ok c) (h0 : c ≠ 0)
    (h : Schnorr.verify C H g pk msg (v, s) = .ok ()) (h' : Schnorr.verify C H g pk' msg (v, s) = .ok ()) : pk = pk' := by
  have h1 := (C45 C H g pk v msg s c hc).1.1 h
  have h2 := (C45 C H g pk' v msg s c hc).1.1 h'
  have h4 : c • pk = c • pk' := add_left_cancel (h1.trans h2.symm)
  have := congrArg (c⁻¹ • ·) h4
  simpa [smul_smul, inv_mul_cancel₀ h0] using this

/-- **C45** (one response). -/
theorem C45_response_unique (C : Curve G) (H : HashEnv r) (g pk v : G) (hg : g ≠ 0) (msg : List UInt8) (s s' : ZMod r)
    (h : Schnorr.verify C H g pk msg (v, s) = .ok ()) (h' : Schnorr.verify C H g pk msg (v, s') = .ok ()) : s = s' := by
  obtain ⟨c, hc, h1⟩ := schnorr_verify_ok h
  have h2 := (C45 C H g pk v msg s' c hc).1.1 h'
  exact smul_left_inj_of_ne hg (add_right_cancel (h1.trans h2.symm))

theorem schnorr_constHash (C : Curve G) (g v : G) (msg : List UInt8) (c : ZMod r) :
    Schnorr.challenge C (Toy.constHash r c) g msg v = .ok c := by
  unfold Schnorr.challenge hashToField
  rw [if_neg (by decide)]
  rcases firstSome_cases (ε := SignatureError) (fun k => (Toy.constHash r c).frFromRandom
      (block ((Toy.constHash r c).stream (padPersona Schnorr.persona) (Schnorr.hashInput C g msg v))
        (Toy.constHash r c).frSize k)) with ⟨k, a, h1, _, h⟩ | ⟨h, _⟩
  · have : c = a := by simpa [Toy.constHash] using h1
    rw [this]; exact this ▸ h
  · have := h 0
    simp [Toy.constHash] at this

/-- Non-vacuity of C45: `pk = 5`, commitment 3, challenges 1 and 2. -/
example : Schnorr.verify (Toy.curve 13) (Toy.constHash 13 1) (1 : ZMod 13) 5 [7] (3, 11) = .ok () ∧
    Schnorr.verify (Toy.curve 13) (Toy.constHash 13 2) (1 : ZMod 13) 5 [8] (3, 6) = .ok () := by
  refine ⟨?_, ?_⟩
  · exact (C45 _ _ _ _ _ _ _ 1 (schnorr_constHash _ _ _ _ _)).1.2 (by decide)
  · exact (C45 _ _ _ _ _ _ _ 2 (schnorr_constHash _ _ _ _ _)).1.2 (by decide)

/-! ### C46: the public key is not part of the hash -/

/-- The claim of C46 in its weakest form: one signature cannot verify for two messages under two different keys. -/
def C46_claim (C : Curve G) (H : HashEnv r) (g : G) : Prop :=
  ∀ (pk pk' : G) (m m' : List UInt8) (sig : Schnorr.Sig r G), m ≠ m' →
    Schnorr.verify C H g pk m sig = .ok () → Schnorr.verify C H g pk' m' sig = .ok () → pk = pk'

/-- **C46 is false of the code**: from any signature `(v, s)` and any other message one computes a public key under which the
same signature is valid for that message. -/
theorem C46_forge (C : Curve G) (H : HashEnv r) (g v : G) (s c' : ZMod r) (m' : List UInt8)
    (hc : Schnorr.challenge C H g m' v = .ok c') (h0 : c' ≠ 0) :
    Schnorr.verify C H g (c'⁻¹ • (v - s • g)) m' (v, s) = .ok () := by
  refine (C45 C H g _ v m' s c' hc).1.2 ?_
  rw [smul_smul, mul_inv_cancel₀ h0, one_smul]
  abel

/-- A hash environment whose challenge depends on the first message byte. -/
def Toy.msgHash : HashEnv 13 where
  stream _ msg _ := msg.headD 0
  frSize := 1
  frFromRandom b := some (Codec.leVal b : ZMod 13)

theorem Toy.msgHash_eq (C : Curve (ZMod 13)) (g v : ZMod 13) (b : UInt8) (msg : List UInt8) :
    Schnorr.challenge C Toy.msgHash g (b :: msg) v = .ok (b.toNat : ZMod 13) := by
  unfold Schnorr.challenge hashToField
  rw [if_neg (by decide)]
  rcases firstSome_cases (ε := SignatureError) (fun k => Toy.msgHash.frFromRandom
      (block (Toy.msgHash.stream (padPersona Schnorr.persona) (Schnorr.hashInput C g (b :: msg) v))
        Toy.msgHash.frSize k)) with ⟨k, a, h1, _, h⟩ | ⟨h, _⟩
  · have : (b.toNat : ZMod 13) = a := by simpa [Toy.msgHash, block, Schnorr.hashInput, Codec.leVal] using h1
    rw [this]; exact this ▸ h
  · have := h 0
    simp [Toy.msgHash] at this

/-- **C46 negated** with a concrete witness: `(3, 11)` is a signature on `[1]` under key 5 and on `[2]` under key 9. -/
theorem C46_false : ¬ C46_claim (r := 13) (Toy.curve 13) Toy.msgHash (1 : ZMod 13) := by
  intro h
  have h1 : Schnorr.verify (Toy.curve 13) Toy.msgHash (1 : ZMod 13) 5 [1] (3, 11) = .ok () :=
    (C45 _ _ _ _ _ _ _ _ (Toy.msgHash_eq _ _ _ 1 [])).1.2 (by decide)
  have h2 : Schnorr.verify (Toy.curve 13) Toy.msgHash (1 : ZMod 13) 9 [2] (3, 11) = .ok () :=
    (C45 _ _ _ _ _ _ _ _ (Toy.msgHash_eq _ _ _ 2 [])).1.2 (by decide)
  exact absurd (h 5 9 [1] [2] (3, 11) (by decide) h1 h2) (by decide)

/-- **C46, the part that holds**: for one and the same message (and a non-zero challenge) the signature identifies the key.
Missing: other messages (`C46_forge`). -/
theorem C46_partial (C : Curve G) (H : HashEnv r) (g pk pk' : G) (m : List UInt8) (sig : Schnorr.Sig r G)
    (hc : Schnorr.challenge C H g m sig.1 ≠ .ok 0)
    (h : Schnorr.verify C H g pk m sig = .ok ()) (h' : Schnorr.verify C H g pk' m sig = .ok ()) : pk = pk' := by
  obtain ⟨c, h1, _⟩ := schnorr_verify_ok h
  exact C45_key_unique C H g pk pk' sig.1 m sig.2 c h1 (fun h0 => hc (h0 ▸ h1)) h h'

/-- Non-vacuity of C46_partial. -/
example : Schnorr.challenge (Toy.curve 13) Toy.msgHash (1 : ZMod 13) [1] 3 ≠ .ok 0 ∧
    Schnorr.verify (Toy.curve 13) Toy.msgHash (1 : ZMod 13) 5 [1] (3, 11) = .ok () := by
  refine ⟨?_, (C45 _ _ _ _ _ _ _ _ (Toy.msgHash_eq _ _ _ 1 [])).1.2 (by decide)⟩
  rw [Toy.msgHash_eq]
  decide

/-! ### Batch verification -/

theorem msm_append (b1 b2 : List G) (s1 s2 : List (ZMod r)) (h : b1.length = s1.length) :
    Schnorr.msm (b1 ++ b2) (s1 ++ s2) = Schnorr.msm b1 s1 + Schnorr.msm b2 s2 := by
  unfold Schnorr.msm
  rw [List.zip_append h, List.map_append, List.sum_append]

/-- The defect of the `i`-th signature of a batch with challenges `cs`. -/
def batchDefect (g : G) (pks : List G) (sigs : List (Schnorr.Sig r G)) (cs : ℕ → ZMod r) (i : ℕ) : G :=
  (sigs.getD i (0, 0)).2 • g + cs i • pks.getD i 0 - (sigs.getD i (0, 0)).1

theorem batchLoop_eq (C : Curve G) (H : HashEnv r) (g : G) (alpha : ZMod r) (pks : List G) (msgs : List (List UInt8))
    (sigs : List (Schnorr.Sig r G)) (cs : ℕ → ZMod r) (k : ℕ) (h1 : k ≤ pks.length) (h2 : k ≤ msgs.length)
    (h3 : k ≤ sigs.length)
    (hcs : ∀ i < k, Schnorr.challenge C H g (msgs.getD i []) (sigs.getD i (0, 0)).1 = .ok (cs i)) :
    ∃ acc, loop (Schnorr.batchStep C H g alpha pks msgs sigs) ⟨[], [], 1⟩ (List.range k) = .ok acc ∧
      acc.bases.length = acc.scalars.length ∧ acc.cur = alpha ^ k ∧
      Schnorr.msm acc.bases acc.scalars = ∑ i ∈ range k, alpha ^ i • batchDefect g pks sigs cs i := by
  induction k with
  | zero => exact ⟨_, rfl, rfl, by simp, by simp [Schnorr.msm]⟩
  | succ k ih =>
    obtain ⟨acc, ha, hl, hcur, hm⟩ := ih (by omega) (by omega) (by omega) (fun i hi => hcs i (by omega))
    have hck := hcs k (by omega)
    rw [getD_lt _ (by omega : k < msgs.length), getD_lt _ (by omega : k < sigs.length)] at hck
    have hstep : Schnorr.batchStep C H g alpha pks msgs sigs acc k = .ok
        { bases := acc.bases ++ [g, pks[k], sigs[k].1]
          scalars := acc.scalars ++ [sigs[k].2 * acc.cur, cs k * acc.cur, -acc.cur]
          cur := acc.cur * alpha } := by
      unfold Schnorr.batchStep
      rw [idx_ok (by omega : k < sigs.length), Res.bind_ok', idx_ok (by omega : k < msgs.length), Res.bind_ok', hck,
        Res.bind_ok', idx_ok (by omega : k < pks.length), Res.bind_ok']
    refine ⟨{ bases := acc.bases ++ [g, pks[k], sigs[k].1]
              scalars := acc.scalars ++ [sigs[k].2 * acc.cur, cs k * acc.cur, -acc.cur]
              cur := acc.cur * alpha }, ?_, ?_, ?_, ?_⟩
    · rw [List.range_succ, loop_append, ha, Res.bind_ok', loop_cons, hstep, Res.bind_ok', loop_nil]
    · simp [hl]
    · simp only [hcur, pow_succ]
    · simp only
      rw [msm_append _ _ _ _ hl, hm, sum_range_succ]
      congr 1
      unfold Schnorr.msm batchDefect
      rw [getD_lt _ (by omega : k < sigs.length), getD_lt _ (by omega : k < pks.length)]
      simp only [List.zip_cons_cons, List.zip_nil_right, List.map_cons, List.map_nil, List.sum_cons, List.sum_nil,
        mulRepr_eq_smul, hcur, add_zero]
      module

theorem batchVerify_eq (C : Curve G) (H : HashEnv r) (g : G) (rng : Rng r) (pks : List G) (msgs : List (List UInt8))
    (sigs : List (Schnorr.Sig r G)) (cs : ℕ → ZMod r) (h2 : pks.length = msgs.length) (h3 : pks.length = sigs.length)
    (hcs : ∀ i < pks.length, Schnorr.challenge C H g (msgs.getD i []) (sigs.getD i (0, 0)).1 = .ok (cs i)) :
    Schnorr.batchVerify C H g rng pks msgs sigs =
      if ∑ i ∈ range pks.length, rng 0 ^ i • batchDefect g pks sigs cs i ≠ 0 then .err .SchnorrVerify else .ok () := by
  unfold Schnorr.batchVerify
  rw [if_neg (by omega)]
  obtain ⟨acc, ha, _, _, hm⟩ := batchLoop_eq C H g (rng 0) pks msgs sigs cs pks.length le_rfl (by omega) (by omega) hcs
  simp only [ha, Res.bind_ok', hm]

/-- **C47**. If every signature verifies individually, the batch verifies for every random alpha. -/
theorem C47 (C : Curve G) (H : HashEnv r) (g : G) (rng : Rng r) (pks : List G) (msgs : List (List UInt8))
    (sigs : List (Schnorr.Sig r G)) (h2 : pks.length = msgs.length) (h3 : pks.length = sigs.length)
    (hv : ∀ i (h : i < pks.length), Schnorr.verify C H g pks[i] msgs[i] sigs[i] = .ok ()) :
    Schnorr.batchVerify C H g rng pks msgs sigs = .ok () := by
  have : ∀ i, ∃ c, ∀ h : i < pks.length, Schnorr.challenge C H g (msgs[i]) (sigs[i].1) = .ok c ∧
      sigs[i].2 • g + c • pks[i] = sigs[i].1 := by
    intro i
    by_cases h : i < pks.length
    · obtain ⟨c, hc, h1⟩ := schnorr_verify_ok (hv i h)
      exact ⟨c, fun _ => ⟨hc, h1⟩⟩
    · exact ⟨0, fun h' => absurd h' h⟩
  choose cs hcs using this
  rw [batchVerify_eq C H g rng pks msgs sigs cs h2 h3, if_neg]
  · rw [not_not]
    refine sum_eq_zero fun i hi => ?_
    have hi' : i < pks.length := by simpa using hi
    unfold batchDefect
    rw [getD_lt _ (by omega : i < sigs.length), getD_lt _ hi', (hcs i hi').2, sub_self, smul_zero]
  · intro i hi
    rw [getD_lt _ (by omega : i < msgs.length), getD_lt _ (by omega : i < sigs.length)]
    exact (hcs i hi).1

/-- **C47** (empty batch). -/
theorem C47_empty (C : Curve G) (H : HashEnv r) (g : G) (rng : Rng r) :
    Schnorr.batchVerify C H g rng [] [] [] = .ok () :=
  C47 C H g rng [] [] [] rfl rfl (fun i h => by simp at h)

/-- **C47** (batch of one). -/
theorem C47_one (C : Curve G) (H : HashEnv r) (hH : HashTotal H) (g pk : G) (rng : Rng r) (msg : List UInt8)
    (sig : Schnorr.Sig r G) :
    Schnorr.batchVerify C H g rng [pk] [msg] [sig] = .ok () ↔ Schnorr.verify C H g pk msg sig = .ok () := by
  obtain ⟨c, hc⟩ := hashToField_total (ε := SignatureError) hH schnorr_persona_length (Schnorr.hashInput C g msg sig.1)
  rw [batchVerify_eq C H g rng [pk] [msg] [sig] (fun _ => c) rfl rfl (fun i hi => by
    have : i = 0 := by simpa using hi
    subst this; exact hc), (C45 C H g pk sig.1 msg sig.2 c hc).1]
  simp only [List.length_cons, List.length_nil, zero_add, range_one, sum_singleton, pow_zero, one_smul, batchDefect,
    List.getD_cons_zero]
  rw [ite_eq_right_iff]
  simp [sub_eq_zero]

/-- Non-vacuity of C47: a batch of two valid signatures. -/
example (rng : Rng 13) : Schnorr.batchVerify (Toy.curve 13) Toy.msgHash (1 : ZMod 13) rng [5, 9] [[1], [2]] [(3, 11), (3, 11)]
    = .ok () := by
  refine C47 _ _ _ _ _ _ _ rfl rfl ?_
  intro i h
  match i, h with
  | 0, _ => exact (C45 _ _ _ (5 : ZMod 13) _ _ _ _ (Toy.msgHash_eq _ _ _ 1 [])).1.2 (by decide)
  | 1, _ => exact (C45 _ _ _ (9 : ZMod 13) _ _ _ _ (Toy.msgHash_eq _ _ _ 2 [])).1.2 (by decide)

/-- A non-zero vector polynomial `Σ α^i E_i` of length `k` has at most `k - 1` zeros. -/
theorem card_vector_roots (k : ℕ) (E : ℕ → G) {i : ℕ} (hi : i < k) (hE : E i ≠ 0) :
    (univ.filter fun α : ZMod r => ∑ i ∈ range k, α ^ i • E i = 0).card ≤ k - 1 := by
  obtain ⟨φ, hφ⟩ : ∃ φ : Module.Dual (ZMod r) G, φ (E i) ≠ 0 := by
    by_contra h
    push Not at h
    exact hE ((Module.forall_dual_apply_eq_zero_iff (ZMod r) _).1 h)
  set P : (ZMod r)[X] := ∑ j ∈ range k, C (φ (E j)) * X ^ j with hP
  have hcoeff : P.coeff i = φ (E i) := by
    rw [hP, finsetSum_coeff]
    simp only [coeff_C_mul, coeff_X_pow, mul_ite, mul_one, mul_zero]
    rw [sum_ite_eq]
    simp [hi]
  have hP0 : P ≠ 0 := by
    intro h
    rw [h] at hcoeff
    exact hφ (by simpa using hcoeff.symm)
  have hdeg : P.natDegree ≤ k - 1 := by
    rw [hP]
    refine natDegree_sum_le_of_forall_le _ _ fun j hj => ?_
    refine le_trans (natDegree_C_mul_X_pow_le _ _) ?_
    have : j < k := by simpa using hj
    omega
  refine le_trans ?_ (le_trans (card_roots' P) hdeg)
  refine le_trans ?_ (Multiset.toFinset_card_le _)
  refine card_le_card fun α hα => ?_
  simp only [mem_filter, mem_univ, true_and] at hα
  rw [Multiset.mem_toFinset, mem_roots hP0, IsRoot, hP, eval_finsetSum]
  have := congrArg φ hα
  rw [map_sum, map_zero] at this
  refine Eq.trans ?_ this
  refine sum_congr rfl fun j _ => ?_
  rw [map_smul, smul_eq_mul, eval_mul, eval_C, eval_pow, eval_X, mul_comm]

/-- A random stream with first value `a`. -/
def Spec.withFirst (a : ZMod r) (tail : ℕ → ZMod r) : Rng r := fun i => if i = 0 then a else tail i

open Classical in
/-- **C48**. If signature `i` of a batch of `k` does not verify, at most `k - 1` of the `r` values of alpha make the batch
verify; for the others the result is `SchnorrVerify`. -/
theorem C48 (C : Curve G) (H : HashEnv r) (hH : HashTotal H) (g : G) (tail : ℕ → ZMod r) (pks : List G)
    (msgs : List (List UInt8)) (sigs : List (Schnorr.Sig r G)) (h2 : pks.length = msgs.length)
    (h3 : pks.length = sigs.length) (i : ℕ) (hi : i < pks.length)
    (hv : Schnorr.verify C H g pks[i] msgs[i] sigs[i] ≠ .ok ()) :
    (univ.filter fun α : ZMod r => Schnorr.batchVerify C H g (Spec.withFirst α tail) pks msgs sigs = .ok ()).card
      ≤ pks.length - 1 ∧
    ∀ rng, Schnorr.batchVerify C H g rng pks msgs sigs = .ok () ∨
      Schnorr.batchVerify C H g rng pks msgs sigs = .err .SchnorrVerify := by
  have : ∀ i, ∃ c, Schnorr.challenge C H g (msgs.getD i []) (sigs.getD i (0, 0)).1 = .ok c := fun i =>
    hashToField_total (ε := SignatureError) hH schnorr_persona_length _
  choose cs hcs using this
  have heq := fun rng => batchVerify_eq C H g rng pks msgs sigs cs h2 h3 (fun i _ => hcs i)
  constructor
  · have hE : batchDefect g pks sigs cs i ≠ 0 := by
      intro h0
      apply hv
      have hc := hcs i
      unfold batchDefect at h0
      rw [getD_lt _ (by omega : i < sigs.length), getD_lt _ hi] at h0
      rw [getD_lt _ (by omega : i < sigs.length), getD_lt _ (by omega : i < msgs.length)] at hc
      exact (C45 C H g _ _ _ _ _ hc).1.2 (sub_eq_zero.1 h0)
    refine le_trans (card_le_card fun α hα => ?_) (card_vector_roots pks.length (batchDefect g pks sigs cs) hi hE)
    simp only [mem_filter, mem_univ, true_and] at hα ⊢
    rw [heq] at hα
    split at hα
    · cases hα
    · rename_i h; simpa [Spec.withFirst] using h
  · intro rng
    rw [heq]
    split
    · exact Or.inr rfl
    · exact Or.inl rfl

/-- Non-vacuity of C48: a wrong key in position 1. -/
example : Schnorr.verify (Toy.curve 13) (Toy.constHash 13 1) (1 : ZMod 13) 4 [7] (3, 11) ≠ .ok () := by
  rw [(C45 _ _ _ _ _ _ _ 1 (schnorr_constHash _ _ _ _ _)).2 (by decide)]
  simp

/-- **C49**. -/
theorem C49 (C : Curve G) (H : HashEnv r) (g : G) (rng : Rng r) (pks : List G) (msgs : List (List UInt8))
    (sigs : List (Schnorr.Sig r G)) (a b c : ℕ) :
    Schnorr.batchVerify C H g rng pks msgs sigs = .err (.BatchVerification a b c) ↔
      ¬ (pks.length = msgs.length ∧ pks.length = sigs.length) ∧ a = pks.length ∧ b = msgs.length ∧ c = sigs.length := by
  unfold Schnorr.batchVerify
  split
  · rename_i h
    constructor
    · intro h'; cases h'; exact ⟨by omega, rfl, rfl, rfl⟩
    · rintro ⟨_, rfl, rfl, rfl⟩; rfl
  · rename_i h
    constructor
    · intro h'
      exfalso
      rw [Res.bind_eq_err] at h'
      rcases h' with h' | ⟨acc, _, h'⟩
      · have hne : ∀ (l : List ℕ) (st : Schnorr.BatchAcc r G) (e : SignatureError),
            loop (Schnorr.batchStep C H g (rng 0) pks msgs sigs) st l ≠ .err e := by
          intro l
          induction l with
          | nil => intro st e h; cases h
          | cons x xs ih =>
            intro st e h
            rw [loop_cons, Res.bind_eq_err] at h
            rcases h with h | ⟨s', _, h⟩
            · unfold Schnorr.batchStep at h
              simp only [Res.bind_eq_err] at h
              rcases h with h | ⟨_, _, h | ⟨_, _, h | ⟨_, _, h | ⟨_, _, h⟩⟩⟩⟩
              · exact idx_ne_err h
              · exact idx_ne_err h
              · exact hashToField_ne_err _ _ _ _ h
              · exact idx_ne_err h
              · cases h
            · exact ih _ _ h
        exact hne _ _ _ h'
      · split at h' <;> cases h'
    · rintro ⟨h', _⟩
      exfalso; omega

/-- Non-vacuity of C49. -/
example (rng : Rng 13) : Schnorr.batchVerify (Toy.curve 13) (Toy.hashEnv 13) (1 : ZMod 13) rng [5] [[1], [2]] []
    = .err (.BatchVerification 1 2 0) := (C49 _ _ _ _ _ _ _ _ _ _).2 (by decide)

end Verif
