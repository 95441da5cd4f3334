import Verif.Lemmas.Fork
import Verif.Props.Hash

/-!
# Provers know and forgers are turned into key recoverers: C93

The challenge hash is a random table. An adversary with `k` look-ups is run twice; the second time the table has a new value at
the point the verifier looks up.
-/

open Finset

namespace Verif

set_option linter.unusedSectionVars false

variable {r : ℕ} [Fact r.Prime] {G : Type} [AddCommGroup G] [DecidableEq G] [Module (ZMod r) G]

open Classical in
/-- **C93** (discrete-log proofs). Fix a statement. Let a prover with `k` look-ups convince `verify` for the tables in `T`. Then
running it on a table and on the table with a new value at the verifier's look-up gives, by the formula of special soundness,
the discrete logarithm of the statement for a number `W` of pairs of a table and a new value with
`r |T|² ≤ (k + 1) N (W + |T|)`, where `N` is the number of tables. -/
theorem C93 (C : Curve G) (hl : C.codec.Lawful) (g stmnt : G) (D : Finset (List UInt8)) (env : (D → ZMod r) → HashEnv r)
    (henv : ∀ f (x : D), hashToField (ε := NIZKError) (env f) DLK.persona x.1 = .ok (f x))
    (k : ℕ) (query : List (ZMod r) → D) (out : List (ZMod r) → DLK.Proof r G)
    (hD : ∀ l, C.codec.enc g ++ C.codec.enc (out l).1 ∈ D) :
    let run : (D → ZMod r) → DLK.Proof r G := fun f => out (Spec.answers query f k)
    let rerun : (D → ZMod r) → ZMod r → DLK.Proof r G := fun f v =>
      run (Function.update f ⟨C.codec.enc g ++ C.codec.enc (run f).1, hD _⟩ v)
    let T := univ.filter fun f : D → ZMod r => DLK.verify C (env f) g stmnt (run f) = .ok ()
    let W := univ.filter fun p : (D → ZMod r) × ZMod r =>
      stmnt = (((run p.1).2.2 - (rerun p.1 p.2).2.2) * ((rerun p.1 p.2).2.1 - (run p.1).2.1)⁻¹) • g
    r * T.card ^ 2 ≤ (k + 1) * Fintype.card (D → ZMod r) * (W.card + T.card) := by
  intro run rerun T W
  have h := fork_crit query (fun l => (⟨C.codec.enc g ++ C.codec.enc (out l).1, hD l⟩ : D)) k T
  rw [ZMod.card] at h
  refine le_trans h (Nat.mul_le_mul_left _ (Nat.add_le_add_right (card_le_card ?_) _))
  intro p hp
  simp only [mem_filter, mem_univ, true_and, T, W] at hp ⊢
  obtain ⟨h1, h2, h3, h4⟩ := hp
  set f' := Function.update p.1 ⟨C.codec.enc g ++ C.codec.enc (out (Spec.answers query p.1 k)).1, hD _⟩ p.2 with hf'
  have hrr : rerun p.1 p.2 = run f' := rfl
  rw [hrr]
  have hx : (run f').1 = (run p.1).1 := hl.inj (List.append_cancel_left (Subtype.mk.inj h3))
  have e1 := (dlk_verify_ok h1).1
  have e2 := (dlk_verify_ok h2).1
  unfold DLK.challenge at e1 e2
  rw [henv p.1 ⟨_, hD (Spec.answers query p.1 k)⟩] at e1
  rw [henv f' ⟨_, hD (Spec.answers query f' k)⟩, h3, hf', Function.update_self, ← hf'] at e2
  injection e1 with e1
  injection e2 with e2
  refine C37 C (env p.1) (env f') g stmnt (run p.1).1 (run p.1).2.1 (run f').2.1 (run p.1).2.2 (run f').2.2 h1 ?_ ?_
  · rw [← hx]
    exact h2
  · intro he
    apply h4
    rw [e1, e2]
    exact he.symm

open Classical in
/-- **C93** (Schnorr signatures). The same for a forger that sees the public key `pk`: it outputs a message and a signature, and the
two runs give the secret key. -/
theorem C93_schnorr (C : Curve G) (hl : C.codec.Lawful) {n : ℕ} (hfix : C.codec.Fixed n) (g pk : G)
    (D : Finset (List UInt8)) (env : (D → ZMod r) → HashEnv r)
    (henv : ∀ f (x : D), hashToField (ε := SignatureError) (env f) Schnorr.persona x.1 = .ok (f x))
    (k : ℕ) (query : List (ZMod r) → D) (out : List (ZMod r) → List UInt8 × Schnorr.Sig r G)
    (hD : ∀ l, Schnorr.hashInput C g (out l).1 (out l).2.1 ∈ D) :
    let run : (D → ZMod r) → List UInt8 × Schnorr.Sig r G := fun f => out (Spec.answers query f k)
    let pt : (D → ZMod r) → D := fun f => ⟨Schnorr.hashInput C g (run f).1 (run f).2.1, hD _⟩
    let T := univ.filter fun f : D → ZMod r => Schnorr.verify C (env f) g pk (run f).1 (run f).2 = .ok ()
    let W := univ.filter fun p : (D → ZMod r) × ZMod r =>
      pk = (((run p.1).2.2 - (run (Function.update p.1 (pt p.1) p.2)).2.2) * (p.2 - p.1 (pt p.1))⁻¹) • g
    r * T.card ^ 2 ≤ (k + 1) * Fintype.card (D → ZMod r) * (W.card + T.card) := by
  intro run pt T W
  have h := fork_crit query (fun l => (⟨Schnorr.hashInput C g (out l).1 (out l).2.1, hD l⟩ : D)) k T
  rw [ZMod.card] at h
  refine le_trans h (Nat.mul_le_mul_left _ (Nat.add_le_add_right (card_le_card ?_) _))
  intro p hp
  simp only [mem_filter, mem_univ, true_and, T, W] at hp ⊢
  obtain ⟨h1, h2, h3, h4⟩ := hp
  set f' := Function.update p.1 ⟨Schnorr.hashInput C g (out (Spec.answers query p.1 k)).1
    (out (Spec.answers query p.1 k)).2.1, hD _⟩ p.2 with hf'
  have hpt : pt p.1 = ⟨Schnorr.hashInput C g (out (Spec.answers query p.1 k)).1
    (out (Spec.answers query p.1 k)).2.1, hD _⟩ := rfl
  rw [← hpt] at hf' h4
  obtain ⟨-, -, hx⟩ := C50_schnorr C hl n hfix g g _ _ _ _ (Subtype.mk.inj h3)
  have e1 : Schnorr.challenge C (env p.1) g (run p.1).1 (run p.1).2.1 = .ok (p.1 (pt p.1)) := henv p.1 (pt p.1)
  have e2 : Schnorr.challenge C (env f') g (run f').1 (run f').2.1 = .ok p.2 := by
    have := henv f' (pt f')
    rw [show f' (pt f') = p.2 by rw [show pt f' = pt p.1 from h3, hf', Function.update_self]] at this
    exact this
  have hx' : (run f').2.1 = (run p.1).2.1 := hx
  have := C45_nonce_reuse C (env p.1) (env f') g pk (run p.1).2.1 (run p.1).1 (run f').1 (run p.1).2.2 (run f').2.2
    (p.1 (pt p.1)) p.2 e1 (by rw [← hx']; exact e2) (Ne.symm h4) h1 (by rw [← hx']; exact h2)
  exact this

open Classical in
/-- **C93** (false statements). If no scalar is the discrete logarithm of the statement, a prover with `k` look-ups convinces
`verify` for at most a fraction `(k + 1) / r` of the tables. -/
theorem C93_sound (C : Curve G) (hl : C.codec.Lawful) (g stmnt : G) (hfalse : ∀ w : ZMod r, stmnt ≠ w • g)
    (D : Finset (List UInt8)) (env : (D → ZMod r) → HashEnv r)
    (henv : ∀ f (x : D), hashToField (ε := NIZKError) (env f) DLK.persona x.1 = .ok (f x))
    (k : ℕ) (query : List (ZMod r) → D) (out : List (ZMod r) → DLK.Proof r G)
    (hD : ∀ l, C.codec.enc g ++ C.codec.enc (out l).1 ∈ D) :
    r * (univ.filter fun f : D → ZMod r =>
      DLK.verify C (env f) g stmnt (out (Spec.answers query f k)) = .ok ()).card ≤
        (k + 1) * Fintype.card (D → ZMod r) := by
  have h := C93 C hl g stmnt D env henv k query out hD
  simp only [hfalse, filter_false, card_empty, zero_add] at h
  set t := (univ.filter fun f : D → ZMod r =>
      DLK.verify C (env f) g stmnt (out (Spec.answers query f k)) = .ok ()).card with ht
  rcases Nat.eq_zero_or_pos t with h0 | h0
  · rw [h0]; simp
  · refine Nat.le_of_mul_le_mul_right ?_ h0
    calc r * t * t = r * t ^ 2 := by ring
      _ ≤ _ := h

/-- Non-vacuity of C93: the honest prover for the statement `5` makes one look-up and convinces `verify` for every table, so that
`T` is the set of all tables. -/
example : ∃ (D : Finset (List UInt8)) (query : List (ZMod 13) → D) (out : List (ZMod 13) → DLK.Proof 13 (ZMod 13)),
    (∀ l, (Toy.curve 13).codec.enc (1 : ZMod 13) ++ (Toy.curve 13).codec.enc (out l).1 ∈ D) ∧
    (∀ f (x : D), hashToField (ε := NIZKError) (Toy.tableHash D f) DLK.persona x.1 = .ok (f x)) ∧
    ∀ f, DLK.verify (Toy.curve 13) (Toy.tableHash D f) (1 : ZMod 13) 5 (out (Spec.answers query f 1)) = .ok () := by
  let x := (Toy.curve 13).codec.enc (1 : ZMod 13) ++ (Toy.curve 13).codec.enc (3 : ZMod 13)
  have hx : x ∈ ({x} : Finset (List UInt8)) := Finset.mem_singleton_self _
  have ht : ∀ f (y : ({x} : Finset (List UInt8))),
      hashToField (ε := NIZKError) (Toy.tableHash {x} f) DLK.persona y.1 = .ok (f y) :=
    fun f y => Toy.tableHash_eq (by decide) {x} f y
  refine ⟨{x}, fun _ => ⟨x, hx⟩, fun l => (3, l.headD 0, 3 - 5 * l.headD 0), fun l => hx, ht, ?_⟩
  intro f
  have hc : DLK.challenge (Toy.curve 13) (Toy.tableHash {x} f) (1 : ZMod 13) 3 = .ok (f ⟨x, hx⟩) := ht f ⟨x, hx⟩
  simp only [Spec.answers, List.nil_append, List.headD_cons]
  have key : DLK.prove (Toy.curve 13) (Toy.tableHash {x} f) (1 : ZMod 13) (fun _ => 3) (5 : ZMod 13) =
      .ok ((3, f ⟨x, hx⟩, 3 - 5 * f ⟨x, hx⟩), Rng.drop (fun _ => (3 : ZMod 13)) 1) := by
    have h3 : mulRepr (1 : ZMod 13) (3 : ZMod 13) = 3 := by rw [mulRepr_eq_smul]; decide
    simp only [DLK.prove, h3, hc, Res.bind_ok']
  have := (C36 _ _ _ _ _ _ _ key).2
  rw [show (DLK.fromWitness (1 : ZMod 13) (5 : ZMod 13)).2 = 5 by rw [DLK.fromWitness, mulRepr_eq_smul]; decide] at this
  exact this

end Verif
