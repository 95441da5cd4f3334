import Verif.Props.Predetermined
import Verif.Props.Keys

/-!
# Proofs of knowledge and their simulation with a random hash: C122

The equality proofs of nizk/dleq hash generators, statement and commitments, so that a prover that chooses all of these as it likes still
knows the witness. And honest proofs of all three kinds (equality proofs, discrete-log proofs, Schnorr signatures) are distributed, together
with the table of the hash function, as what a simulator without the witness makes.
-/

open Finset

namespace Verif

set_option linter.unusedSectionVars false

variable {r : ℕ} [Fact r.Prime] {G G' : Type}
  [AddCommGroup G] [DecidableEq G] [AddCommGroup G'] [DecidableEq G'] [Module (ZMod r) G] [Module (ZMod r) G']

/-! ### Knowledge -/

/-- The witness from two equality proofs. -/
noncomputable def Spec.witnessOf (p p' : DLEQ.Proof r G G') : ZMod r := (p.2.2 - p'.2.2) * (p'.2.1 - p.2.1)⁻¹

/-- The statement is `(w g, w h)` for the generators `(g, h)`. -/
def Spec.EqualLogs (srs stmnt : G × G') (w : ZMod r) : Prop := stmnt.1 = w • srs.1 ∧ stmnt.2 = w • srs.2

/-- Two runs that ask for the same challenge and get different answers. -/
theorem dleq_two (C1 : Curve G) (C2 : Curve G') (h1 : C1.codec.Lawful) (h2 : C2.codec.Lawful) {H H' : HashEnv r}
    {x x' : (G × G') × (G × G') × DLEQ.Proof r G G'} {c c' : ZMod r}
    (hv : DLEQ.verify C1 C2 H x.1 x.2.1 x.2.2 = .ok ()) (hv' : DLEQ.verify C1 C2 H' x'.1 x'.2.1 x'.2.2 = .ok ())
    (he : DLEQ.hashInput C1 C2 x'.1 x'.2.1 x'.2.2.1 = DLEQ.hashInput C1 C2 x.1 x.2.1 x.2.2.1)
    (hc : hashToField (ε := NIZKError) H DLEQ.persona (DLEQ.hashInput C1 C2 x.1 x.2.1 x.2.2.1) = .ok c)
    (hc' : hashToField (ε := NIZKError) H' DLEQ.persona (DLEQ.hashInput C1 C2 x'.1 x'.2.1 x'.2.2.1) = .ok c') (hne : c' ≠ c) :
    Spec.EqualLogs x.1 x.2.1 (Spec.witnessOf x.2.2 x'.2.2) := by
  obtain ⟨e1, e2, e3⟩ := C41_binding C1 C2 h1 h2 _ _ _ _ _ _ he
  have k1 : x.2.2.2.1 = c := Res.ok.inj ((dleq_verify_ok hv).1.symm.trans hc)
  have k2 : x'.2.2.2.1 = c' := Res.ok.inj ((dleq_verify_ok hv').1.symm.trans hc')
  obtain ⟨s, t, a, b, z⟩ := x
  obtain ⟨s', t', a', b', z'⟩ := x'
  simp only at e1 e2 e3 k1 k2 hv hv'
  subst e1 e2 e3 k1 k2
  exact C41 C1 C2 H H' _ _ _ _ _ _ _ hv hv' hne.symm

open Classical in
/-- **C122** (knowledge). The prover chooses generators, statement and proof, also after its look-ups. If it convinces `verify` for the
tables in `T`, then running it a second time with another answer at the verifier's look-up gives the witness for `W` pairs of a table and an
answer, `r |T|² ≤ (k + 1) N (W + |T|)`. -/
theorem C122_knowledge (C1 : Curve G) (C2 : Curve G') (h1 : C1.codec.Lawful) (h2 : C2.codec.Lawful)
    (D : Finset (List UInt8)) (env : (D → ZMod r) → HashEnv r)
    (henv : ∀ f (x : D), hashToField (ε := NIZKError) (env f) DLEQ.persona x.1 = .ok (f x))
    (k : ℕ) (query : List (ZMod r) → D) (out : List (ZMod r) → (G × G') × (G × G') × DLEQ.Proof r G G')
    (hD : ∀ l, DLEQ.hashInput C1 C2 (out l).1 (out l).2.1 (out l).2.2.1 ∈ D) :
    let run : (D → ZMod r) → (G × G') × (G × G') × DLEQ.Proof r G G' := fun f => out (Spec.answers query f k)
    let rerun : (D → ZMod r) → ZMod r → (G × G') × (G × G') × DLEQ.Proof r G G' := fun f c =>
      run (Function.update f ⟨_, hD (Spec.answers query f k)⟩ c)
    let T := univ.filter fun f : D → ZMod r => DLEQ.verify C1 C2 (env f) (run f).1 (run f).2.1 (run f).2.2 = .ok ()
    let W := univ.filter fun p : (D → ZMod r) × ZMod r => p.1 ∈ T ∧
      Spec.EqualLogs (run p.1).1 (run p.1).2.1 (Spec.witnessOf (run p.1).2.2 (rerun p.1 p.2).2.2)
    r * T.card ^ 2 ≤ (k + 1) * Fintype.card (D → ZMod r) * (W.card + T.card) := by
  intro run rerun T W
  have h := fork_crit query (fun l => (⟨_, hD l⟩ : D)) k T
  rw [ZMod.card] at h
  refine le_trans h (Nat.mul_le_mul_left _ (Nat.add_le_add_right (card_le_card fun p hp => ?_) _))
  simp only [mem_filter, mem_univ, true_and, W] at hp ⊢
  obtain ⟨hT, hT', h3, h4⟩ := hp
  refine ⟨hT, ?_⟩
  have hv : DLEQ.verify C1 C2 (env p.1) (run p.1).1 (run p.1).2.1 (run p.1).2.2 = .ok () := (mem_filter.1 hT).2
  refine dleq_two C1 C2 h1 h2 hv (mem_filter.1 hT').2 (Subtype.mk.inj h3) (henv p.1 ⟨_, hD _⟩) ?_ h4
  refine (henv _ ⟨_, hD _⟩).trans ?_
  rw [h3, Function.update_self]

/-- From pairs to tables: the forking bound when each table of `T` has at most `d` good answers. -/
theorem few_answers {X A : Type} [Fintype X] [DecidableEq X] [Fintype A] [DecidableEq A] {n k d : ℕ} {T : Finset (X → A)}
    {P : (X → A) × A → Prop} [DecidablePred P] (h : n * T.card ^ 2 ≤ (k + 1) * Fintype.card (X → A) * ((univ.filter P).card + T.card))
    (good : (X → A) → Finset A) (hd : ∀ f ∈ T, (good f).card ≤ d) (hP : ∀ p, P p → p.1 ∈ T ∧ p.2 ∈ good p.1) :
    n * T.card ≤ (k + 1) * (d + 1) * Fintype.card (X → A) := by
  have hW : (univ.filter P).card ≤ T.card * d := by
    refine le_trans (card_le_card (t := (T.sigma good).map ⟨fun x => (x.1, x.2), fun x y hxy => ?_⟩) fun p hp => ?_) ?_
    · cases x; cases y
      simp only [Prod.mk.injEq] at hxy
      obtain ⟨rfl, rfl⟩ := hxy
      rfl
    · simp only [mem_map, mem_sigma]
      exact ⟨⟨p.1, p.2⟩, hP p (mem_filter.1 hp).2, rfl⟩
    · rw [card_map, card_sigma]
      exact le_trans (sum_le_card_nsmul T _ d hd) (by rw [smul_eq_mul])
  rcases Nat.eq_zero_or_pos T.card with h0 | h0
  · rw [h0]; simp
  · refine Nat.le_of_mul_le_mul_right ?_ h0
    calc n * T.card * T.card = n * T.card ^ 2 := by ring
      _ ≤ _ := h
      _ ≤ (k + 1) * Fintype.card (X → A) * (T.card * d + T.card) := Nat.mul_le_mul_left _ (Nat.add_le_add_right hW _)
      _ = _ := by ring

open Classical in
/-- **C122** (knowledge, table by table). For all but a `(k + 1) (d + 1) / r` fraction of the tables the prover fails or more than `d` of
the `r` answers give the witness. -/
theorem C122_table (C1 : Curve G) (C2 : Curve G') (h1 : C1.codec.Lawful) (h2 : C2.codec.Lawful)
    (D : Finset (List UInt8)) (env : (D → ZMod r) → HashEnv r)
    (henv : ∀ f (x : D), hashToField (ε := NIZKError) (env f) DLEQ.persona x.1 = .ok (f x))
    (k : ℕ) (query : List (ZMod r) → D) (out : List (ZMod r) → (G × G') × (G × G') × DLEQ.Proof r G G')
    (hD : ∀ l, DLEQ.hashInput C1 C2 (out l).1 (out l).2.1 (out l).2.2.1 ∈ D) (d : ℕ) :
    let run : (D → ZMod r) → (G × G') × (G × G') × DLEQ.Proof r G G' := fun f => out (Spec.answers query f k)
    let rerun : (D → ZMod r) → ZMod r → (G × G') × (G × G') × DLEQ.Proof r G G' := fun f c =>
      run (Function.update f ⟨_, hD (Spec.answers query f k)⟩ c)
    r * (univ.filter fun f : D → ZMod r => DLEQ.verify C1 C2 (env f) (run f).1 (run f).2.1 (run f).2.2 = .ok () ∧
      (univ.filter fun c : ZMod r => Spec.EqualLogs (run f).1 (run f).2.1
        (Spec.witnessOf (run f).2.2 (rerun f c).2.2)).card ≤ d).card ≤ (k + 1) * (d + 1) * Fintype.card (D → ZMod r) := by
  intro run rerun
  set T := univ.filter fun f : D → ZMod r => DLEQ.verify C1 C2 (env f) (run f).1 (run f).2.1 (run f).2.2 = .ok () ∧
      (univ.filter fun c : ZMod r => Spec.EqualLogs (run f).1 (run f).2.1
        (Spec.witnessOf (run f).2.2 (rerun f c).2.2)).card ≤ d with hTdef
  have h := fork_crit query (fun l => (⟨_, hD l⟩ : D)) k T
  rw [ZMod.card] at h
  clear_value T
  have hT0 : ∀ f, f ∈ T ↔ DLEQ.verify C1 C2 (env f) (run f).1 (run f).2.1 (run f).2.2 = .ok () ∧
      (univ.filter fun c : ZMod r => Spec.EqualLogs (run f).1 (run f).2.1
        (Spec.witnessOf (run f).2.2 (rerun f c).2.2)).card ≤ d := fun f => by rw [hTdef, mem_filter]; simp only [mem_univ, true_and]
  refine few_answers h (fun f => univ.filter fun c : ZMod r => Spec.EqualLogs (run f).1 (run f).2.1
        (Spec.witnessOf (run f).2.2 (rerun f c).2.2)) (fun f hf => ((hT0 f).1 hf).2) fun p hp => ?_
  obtain ⟨hT, hT', h3, h4⟩ := hp
  refine ⟨hT, ?_⟩
  simp only [mem_filter, mem_univ, true_and]
  refine dleq_two C1 C2 h1 h2 ((hT0 _).1 hT).1 ((hT0 _).1 hT').1 (Subtype.mk.inj h3) (henv p.1 ⟨_, hD _⟩) ?_ h4
  refine (henv _ ⟨_, hD _⟩).trans ?_
  rw [h3, Function.update_self]

/-! ### Simulation -/

/-- What the simulator makes for a discrete-log statement. -/
def Spec.simDlk (g stmnt : G) (c z : ZMod r) : DLK.Proof r G := (z • g + c • stmnt, c, z)

/-- What the simulator makes for an equality statement. -/
def Spec.simDleq (srs stmnt : G × G') (c z : ZMod r) : DLEQ.Proof r G G' :=
  ((z • srs.1 + c • stmnt.1, z • srs.2 + c • stmnt.2), c, z)

/-- What the simulator makes for a public key. -/
def Spec.simSchnorr (g pk : G) (c z : ZMod r) : Schnorr.Sig r G := (z • g + c • pk, z)

open Classical in
/-- A nonce and a table against a challenge, a response and a table whose entry at the commitment is replaced. -/
theorem card_sim {X : Type} [Fintype X] [DecidableEq X] (w : ZMod r) (pt : ZMod r → X) (Q : ZMod r → ZMod r → ZMod r → (X → ZMod r) → Prop) :
    r * (univ.filter fun x : ZMod r × (X → ZMod r) => Q x.1 (x.2 (pt x.1)) (x.1 - w * x.2 (pt x.1)) x.2).card =
      (univ.filter fun y : (ZMod r × ZMod r) × (X → ZMod r) =>
        Q (y.1.2 + w * y.1.1) y.1.1 y.1.2 (Function.update y.2 (pt (y.1.2 + w * y.1.1)) y.1.1)).card := by
  have h : r * (univ.filter fun x : ZMod r × (X → ZMod r) => Q x.1 (x.2 (pt x.1)) (x.1 - w * x.2 (pt x.1)) x.2).card =
      ((univ : Finset (ZMod r)) ×ˢ (univ.filter fun x : ZMod r × (X → ZMod r) => Q x.1 (x.2 (pt x.1)) (x.1 - w * x.2 (pt x.1)) x.2)).card := by
    rw [card_product, card_univ, ZMod.card]
  rw [h]
  refine card_bij' (fun a _ => ((a.2.2 (pt a.2.1), a.2.1 - w * a.2.2 (pt a.2.1)), Function.update a.2.2 (pt a.2.1) a.1))
    (fun y _ => (y.2 (pt (y.1.2 + w * y.1.1)), (y.1.2 + w * y.1.1, Function.update y.2 (pt (y.1.2 + w * y.1.1)) y.1.1))) ?_ ?_ ?_ ?_
  · rintro ⟨d, k, f⟩ ha
    simp only [mem_product, mem_filter, mem_univ, true_and, sub_add_cancel, Function.update_idem, Function.update_eq_self] at ha ⊢
    exact ha
  · rintro ⟨⟨c, z⟩, f⟩ hy
    simp only [mem_product, mem_filter, mem_univ, true_and, Function.update_self, add_sub_cancel_right] at hy ⊢
    exact hy
  · rintro ⟨d, k, f⟩ _
    simp only [sub_add_cancel, Function.update_idem, Function.update_eq_self, Function.update_self]
  · rintro ⟨⟨c, z⟩, f⟩ _
    simp only [Function.update_self, add_sub_cancel_right, Function.update_idem, Function.update_eq_self]

open Classical in
/-- **C122** (simulation, equality proofs). Whatever is observed of an honest proof and the whole table, it is observed for as large a
fraction of the nonces and tables as of the challenges, responses and tables of the simulator, which knows only the statement and puts the
challenge into the table at its commitments. -/
theorem C122_dleq (C1 : Curve G) (C2 : Curve G') (D : Finset (List UInt8)) (env : (D → ZMod r) → HashEnv r)
    (henv : ∀ f (x : D), hashToField (ε := NIZKError) (env f) DLEQ.persona x.1 = .ok (f x)) (srs : G × G') (w : ZMod r) (rng : Rng r)
    (hD : ∀ a, DLEQ.hashInput C1 C2 srs (w • srs.1, w • srs.2) a ∈ D) (Q : DLEQ.Proof r G G' → (D → ZMod r) → Prop) :
    r * (univ.filter fun x : ZMod r × (D → ZMod r) =>
        ∃ p rng', DLEQ.prove C1 C2 (env x.2) srs (Spec.withFirst x.1 rng) w = .ok (p, rng') ∧ Q p x.2).card =
      (univ.filter fun y : (ZMod r × ZMod r) × (D → ZMod r) =>
        Q (Spec.simDleq srs (w • srs.1, w • srs.2) y.1.1 y.1.2)
          (Function.update y.2 ⟨_, hD (Spec.simDleq srs (w • srs.1, w • srs.2) y.1.1 y.1.2).1⟩ y.1.1)).card := by
  have h := card_sim w (fun k => (⟨_, hD (k • srs.1, k • srs.2)⟩ : D)) fun k c z f => Q ((k • srs.1, k • srs.2), c, z) f
  have e : ∀ (c z : ZMod r), (((z + w * c) • srs.1, (z + w * c) • srs.2) : G × G') = (Spec.simDleq srs (w • srs.1, w • srs.2) c z).1 := by
    intro c z
    simp only [Spec.simDleq, add_smul, smul_smul, mul_comm w c]
  simp only [e] at h
  refine Eq.trans ?_ h
  refine congrArg (fun s => r * Finset.card s) (filter_congr fun x _ => ?_)
  have hc := henv x.2 ⟨_, hD (x.1 • srs.1, x.1 • srs.2)⟩
  simp only [DLEQ.prove, DLEQ.challenge, Spec.withFirst, if_true, mulRepr_eq_smul] at hc ⊢
  rw [hc]
  simp only [Res.bind_ok']
  constructor
  · rintro ⟨p, rng', hp, hq⟩
    cases hp
    exact hq
  · exact fun hq => ⟨_, _, rfl, hq⟩

open Classical in
/-- **C122** (simulation, discrete-log proofs). -/
theorem C122_dlk (C : Curve G) (D : Finset (List UInt8)) (env : (D → ZMod r) → HashEnv r)
    (henv : ∀ f (x : D), hashToField (ε := NIZKError) (env f) DLK.persona x.1 = .ok (f x)) (g : G) (w : ZMod r) (rng : Rng r)
    (hD : ∀ a, C.codec.enc g ++ C.codec.enc a ∈ D) (Q : DLK.Proof r G → (D → ZMod r) → Prop) :
    r * (univ.filter fun x : ZMod r × (D → ZMod r) =>
        ∃ p rng', DLK.prove C (env x.2) g (Spec.withFirst x.1 rng) w = .ok (p, rng') ∧ Q p x.2).card =
      (univ.filter fun y : (ZMod r × ZMod r) × (D → ZMod r) =>
        Q (Spec.simDlk g (w • g) y.1.1 y.1.2) (Function.update y.2 ⟨_, hD (Spec.simDlk g (w • g) y.1.1 y.1.2).1⟩ y.1.1)).card := by
  have h := card_sim w (fun k => (⟨_, hD (k • g)⟩ : D)) fun k c z f => Q (k • g, c, z) f
  have e : ∀ (c z : ZMod r), (z + w * c) • g = (Spec.simDlk g (w • g) c z).1 := by
    intro c z
    simp only [Spec.simDlk, add_smul, smul_smul, mul_comm w c]
  simp only [e] at h
  refine Eq.trans ?_ h
  refine congrArg (fun s => r * Finset.card s) (filter_congr fun x _ => ?_)
  have hc := henv x.2 ⟨_, hD (x.1 • g)⟩
  simp only [DLK.prove, DLK.challenge, Spec.withFirst, if_true, mulRepr_eq_smul] at hc ⊢
  rw [hc]
  simp only [Res.bind_ok']
  constructor
  · rintro ⟨p, rng', hp, hq⟩
    cases hp
    exact hq
  · exact fun hq => ⟨_, _, rfl, hq⟩

open Classical in
/-- **C122** (simulation, signatures). -/
theorem C122_schnorr (C : Curve G) (D : Finset (List UInt8)) (env : (D → ZMod r) → HashEnv r)
    (henv : ∀ f (x : D), hashToField (ε := SignatureError) (env f) Schnorr.persona x.1 = .ok (f x)) (g : G) (sk : ZMod r) (rng : Rng r)
    (msg : List UInt8) (hD : ∀ a, Schnorr.hashInput C g msg a ∈ D) (Q : Schnorr.Sig r G → (D → ZMod r) → Prop) :
    r * (univ.filter fun x : ZMod r × (D → ZMod r) =>
        ∃ p rng', Schnorr.sign C (env x.2) g (Spec.withFirst x.1 rng) sk msg = .ok (p, rng') ∧ Q p x.2).card =
      (univ.filter fun y : (ZMod r × ZMod r) × (D → ZMod r) =>
        Q (Spec.simSchnorr g (sk • g) y.1.1 y.1.2)
          (Function.update y.2 ⟨_, hD (Spec.simSchnorr g (sk • g) y.1.1 y.1.2).1⟩ y.1.1)).card := by
  have h := card_sim sk (fun k => (⟨_, hD (k • g)⟩ : D)) fun k _ z f => Q (k • g, z) f
  have e : ∀ (c z : ZMod r), (z + sk * c) • g = (Spec.simSchnorr g (sk • g) c z).1 := by
    intro c z
    simp only [Spec.simSchnorr, add_smul, smul_smul, mul_comm sk c]
  simp only [e] at h
  refine Eq.trans ?_ h
  refine congrArg (fun s => r * Finset.card s) (filter_congr fun x _ => ?_)
  have hc := henv x.2 ⟨_, hD (x.1 • g)⟩
  simp only [Schnorr.sign, Schnorr.challenge, Spec.withFirst, if_true, mulRepr_eq_smul] at hc ⊢
  rw [hc]
  simp only [Res.bind_ok']
  constructor
  · rintro ⟨p, rng', hp, hq⟩
    cases hp
    exact hq
  · exact fun hq => ⟨_, _, rfl, hq⟩

/-- Non-vacuity of C122: a prover that makes the look-up for its proof of `(5, 10) = (5 • 1, 5 • 2)` and answers with it always convinces. -/
example : ∃ (D : Finset (List UInt8)) (query : List (ZMod 13) → D)
    (out : List (ZMod 13) → (ZMod 13 × ZMod 13) × (ZMod 13 × ZMod 13) × DLEQ.Proof 13 (ZMod 13) (ZMod 13)),
    (∀ l, DLEQ.hashInput (Toy.curve 13) (Toy.curve 13) (out l).1 (out l).2.1 (out l).2.2.1 ∈ D) ∧
    (∀ f (x : D), hashToField (ε := NIZKError) (Toy.tableHash D f) DLEQ.persona x.1 = .ok (f x)) ∧
    ∀ f, DLEQ.verify (Toy.curve 13) (Toy.curve 13) (Toy.tableHash D f) (out (Spec.answers query f 1)).1
      (out (Spec.answers query f 1)).2.1 (out (Spec.answers query f 1)).2.2 = .ok () := by
  let x := DLEQ.hashInput (Toy.curve 13) (Toy.curve 13) (1, 2) (5, 10) (3, 6)
  have hx : x ∈ ({x} : Finset (List UInt8)) := mem_singleton_self x
  have ht : ∀ (f : ({x} : Finset (List UInt8)) → ZMod 13) (y : ({x} : Finset (List UInt8))),
      hashToField (ε := NIZKError) (Toy.tableHash {x} f) DLEQ.persona y.1 = .ok (f y) :=
    fun f y => Toy.tableHash_eq (by decide) {x} f y
  refine ⟨{x}, fun _ => ⟨x, hx⟩, fun l => ((1, 2), (5, 10), ((3, 6), l.headD 0, 3 - 5 * l.headD 0)), fun _ => hx, ht, fun f => ?_⟩
  have hc := ht f ⟨x, hx⟩
  have ha : Spec.answers (fun _ => (⟨x, hx⟩ : ({x} : Finset (List UInt8)))) f 1 = [f ⟨x, hx⟩] := rfl
  rw [ha]
  have hg : ∀ c : ZMod 13, (3 - 5 * c) • (1 : ZMod 13) + c • (5 : ZMod 13) = 3 ∧ (3 - 5 * c) • (2 : ZMod 13) + c • (10 : ZMod 13) = 6 := by
    decide
  refine (dleq_verify_eq (Toy.curve 13) (Toy.curve 13) _ (1, 2) (5, 10) ((3, 6), f ⟨x, hx⟩, 3 - 5 * f ⟨x, hx⟩) hc).trans (if_neg ?_)
  have := hg (f ⟨x, hx⟩)
  simp only [ne_eq, not_or, not_not]
  exact ⟨this.1, this.2, trivial⟩

/-- Non-vacuity of C122 (simulation): a domain with all look-ups the prover can make, and a nonce and a table for which the challenge is 7. -/
example (rng : Rng 13) : ∃ (D : Finset (List UInt8)),
    (∀ f (x : D), hashToField (ε := NIZKError) (Toy.tableHash D f) DLK.persona x.1 = .ok (f x)) ∧
    (∀ a, (Toy.curve 13).codec.enc 1 ++ (Toy.curve 13).codec.enc a ∈ D) ∧
    ∃ (f : D → ZMod 13), ∃ p rng', DLK.prove (Toy.curve 13) (Toy.tableHash D f) 1 (Spec.withFirst 4 rng) 5 = .ok (p, rng') ∧ p.2.1 = 7 := by
  let D : Finset (List UInt8) := univ.image fun a : ZMod 13 => (Toy.curve 13).codec.enc 1 ++ (Toy.curve 13).codec.enc a
  have hD : ∀ a, (Toy.curve 13).codec.enc 1 ++ (Toy.curve 13).codec.enc a ∈ D := fun a => mem_image_of_mem _ (mem_univ a)
  have ht : ∀ (f : D → ZMod 13) (x : D), hashToField (ε := NIZKError) (Toy.tableHash D f) DLK.persona x.1 = .ok (f x) :=
    fun f y => Toy.tableHash_eq (by decide) D f y
  refine ⟨D, ht, hD, fun _ => 7, ?_⟩
  have hc := ht (fun _ => 7) ⟨_, hD ((4 : ZMod 13) • 1)⟩
  simp only [DLK.prove, DLK.challenge, Spec.withFirst, if_true, mulRepr_eq_smul] at hc ⊢
  rw [hc]
  exact ⟨_, _, rfl, rfl⟩

end Verif
