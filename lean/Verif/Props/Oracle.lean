import Verif.Props.Nizk

/-!
# Equality proofs with a random oracle: C90

The challenge hash is replaced by a table of field elements, and an adversary with `k` look-ups tries to make the verifier accept
a false statement.
-/

open Finset

namespace Verif

set_option linter.unusedSectionVars false

section General

variable {X A : Type}

/-- The answers to the first `i` look-ups in the table `f`; each look-up is chosen from the earlier answers. -/
def Spec.answers (query : List A → X) (f : X → A) : ℕ → List A
  | 0 => []
  | i + 1 => Spec.answers query f i ++ [f (query (Spec.answers query f i))]

theorem answers_length (query : List A → X) (f : X → A) (i : ℕ) : (Spec.answers query f i).length = i := by
  induction i with
  | zero => rfl
  | succ i ih => simp [Spec.answers, ih]

/-- Look-ups do not see the table at points that were not asked. -/
theorem answers_update [DecidableEq X] (query : List A → X) (f : X → A) (x : X) (v : A) (i : ℕ)
    (h : ∀ j < i, query (Spec.answers query f j) ≠ x) :
    Spec.answers query (Function.update f x v) i = Spec.answers query f i := by
  induction i with
  | zero => rfl
  | succ i ih =>
    simp only [Spec.answers]
    rw [ih fun j hj => h j (by omega), Function.update_of_ne (h i (by omega))]

open Classical in
/-- Hitting a target: at most a `1/|A|` fraction of the tables answers the `i`-th look-up, if it is a new one, with the value
`g` wants. -/
theorem card_hit [Fintype X] [DecidableEq X] [Fintype A] (query : List A → X) (g : X → A) (i : ℕ) :
    (univ.filter fun f : X → A => (∀ j < i, query (Spec.answers query f j) ≠ query (Spec.answers query f i)) ∧
      f (query (Spec.answers query f i)) = g (query (Spec.answers query f i))).card * Fintype.card A
      ≤ Fintype.card (X → A) := by
  let P : (X → A) → Prop := fun f => ∀ j < i, query (Spec.answers query f j) ≠ query (Spec.answers query f i)
  let q : (X → A) → X := fun f => query (Spec.answers query f i)
  have hq : ∀ f, P f → ∀ v, q (Function.update f (q f) v) = q f := by
    intro f hf v
    simp only [q]
    rw [answers_update query f _ v i hf]
  have hP : ∀ f, P f → ∀ v, P (Function.update f (q f) v) := by
    intro f hf v j hj
    have h1 := hq f hf v
    simp only [q] at h1
    rw [h1, answers_update query f _ v j fun l hl => hf l (by omega)]
    exact hf j hj
  have h1 : (univ.filter fun p : (X → A) × A => P p.1 ∧ p.1 (q p.1) = g (q p.1)).card ≤
      (univ.filter fun p : (X → A) × A => p.2 = g (q p.1)).card := by
    apply card_le_card_of_injOn fun p => (Function.update p.1 (q p.1) p.2, p.1 (q p.1))
    · intro p hp
      simp only [coe_filter, mem_univ, true_and, Set.mem_ofPred_eq] at hp ⊢
      rw [hq _ hp.1, hp.2]
    · intro p hp p' hp' h
      simp only [coe_filter, mem_univ, true_and, Set.mem_ofPred_eq, Prod.mk.injEq] at hp hp' h
      obtain ⟨e1, e2⟩ := h
      have e3 : q p.1 = q p'.1 := by rw [← hq _ hp.1 p.2, e1, hq _ hp'.1]
      refine Prod.ext ?_ ?_
      · have := congrArg (fun f => Function.update f (q p.1) (p.1 (q p.1))) e1
        simp only [Function.update_idem, Function.update_eq_self] at this
        rw [this, e2, e3]
        simp
      · have := congrFun e1 (q p.1)
        rw [e3] at this
        rw [← e3, Function.update_self, e3, Function.update_self] at this
        exact this
  have h2 : (univ.filter fun p : (X → A) × A => P p.1 ∧ p.1 (q p.1) = g (q p.1)).card =
      (univ.filter fun f : X → A => P f ∧ f (q f) = g (q f)).card * Fintype.card A := by
    rw [← card_univ, ← card_product]
    congr 1
    ext p
    simp
  have h3 : (univ.filter fun p : (X → A) × A => p.2 = g (q p.1)).card = Fintype.card (X → A) := by
    simp only [card_filter]
    rw [← univ_product_univ, sum_product]
    simp
  rw [h2, h3] at h1
  exact h1

open Classical in
/-- With `k` look-ups one of the answers is the wanted one for at most a `k/|A|` fraction of the tables. -/
theorem card_hits [Fintype X] [DecidableEq X] [Fintype A] (query : List A → X) (g : X → A) (k : ℕ) :
    (univ.filter fun f : X → A => ∃ i < k,
      f (query (Spec.answers query f i)) = g (query (Spec.answers query f i))).card * Fintype.card A
      ≤ k * Fintype.card (X → A) := by
  have hsub : (univ.filter fun f : X → A => ∃ i < k,
      f (query (Spec.answers query f i)) = g (query (Spec.answers query f i))) ⊆
      (range k).biUnion fun i => univ.filter fun f : X → A =>
        (∀ j < i, query (Spec.answers query f j) ≠ query (Spec.answers query f i)) ∧
          f (query (Spec.answers query f i)) = g (query (Spec.answers query f i)) := by
    intro f hf
    simp only [mem_filter, mem_univ, true_and, mem_biUnion, mem_range] at hf ⊢
    have hk := (Nat.find_spec hf).1
    have hg := (Nat.find_spec hf).2
    refine ⟨Nat.find hf, hk, fun j hj he => Nat.find_min hf hj ⟨by omega, ?_⟩, hg⟩
    rw [he]
    exact hg
  calc _ ≤ _ := Nat.mul_le_mul_right _ (card_le_card hsub)
    _ ≤ _ := Nat.mul_le_mul_right _ card_biUnion_le
    _ = _ := sum_mul _ _ _
    _ ≤ ∑ _i ∈ range k, Fintype.card (X → A) := sum_le_sum fun i _ => card_hit query g i
    _ = k * Fintype.card (X → A) := by simp

end General

variable {r : ℕ} [Fact r.Prime] {G G' : Type}
  [AddCommGroup G] [DecidableEq G] [AddCommGroup G'] [DecidableEq G'] [Module (ZMod r) G] [Module (ZMod r) G']

open Classical in
/-- **C90**. Let the challenge hash be a random table `f` on a finite set `D` of byte strings. An adversary makes `k` look-ups,
each chosen from the answers before, and outputs a statement and a proof. For at most a `(k+1)/r` fraction of the tables
the statement is false and `verify` accepts the proof. -/
theorem C90 (C1 : Curve G) (C2 : Curve G') (h1 : C1.codec.Lawful) (h2 : C2.codec.Lawful) (srs : G × G')
    (D : Finset (List UInt8)) (env : (D → ZMod r) → HashEnv r)
    (henv : ∀ f (x : D), hashToField (ε := NIZKError) (env f) DLEQ.persona x.1 = .ok (f x))
    (k : ℕ) (query : List (ZMod r) → D) (out : List (ZMod r) → (G × G') × DLEQ.Proof r G G')
    (hD : ∀ l, DLEQ.hashInput C1 C2 srs (out l).1 (out l).2.1 ∈ D) :
    (univ.filter fun f : D → ZMod r =>
        (∀ w : ZMod r, (out (Spec.answers query f k)).1 ≠ (w • srs.1, w • srs.2)) ∧
        DLEQ.verify C1 C2 (env f) srs (out (Spec.answers query f k)).1 (out (Spec.answers query f k)).2 = .ok ()).card * r
      ≤ (k + 1) * Fintype.card (D → ZMod r) := by
  -- the verifier's look-up is the last one
  let query' : List (ZMod r) → D := fun l => if l.length = k then ⟨_, hD l⟩ else query l
  have hans : ∀ f, ∀ i ≤ k, Spec.answers query' f i = Spec.answers query f i := by
    intro f i
    induction i with
    | zero => exact fun _ => rfl
    | succ i ih =>
      intro hi
      simp only [Spec.answers]
      rw [ih (by omega)]
      simp only [query']
      rw [if_neg (by rw [answers_length]; omega)]
  -- the challenge that admits a proof of a false statement
  let Good : D → ZMod r → Prop := fun x c => ∃ (stmnt comm : G × G') (z : ZMod r),
    x.1 = DLEQ.hashInput C1 C2 srs stmnt comm ∧ (∀ w : ZMod r, stmnt ≠ (w • srs.1, w • srs.2)) ∧
    ∃ H, DLEQ.verify C1 C2 H srs stmnt (comm, c, z) = .ok ()
  have huniq : ∀ x c c', Good x c → Good x c' → c = c' := by
    rintro x c c' ⟨s, m, z, e, hs, H, hv⟩ ⟨s', m', z', e', -, H', hv'⟩
    obtain ⟨-, rfl, rfl⟩ := C41_binding C1 C2 h1 h2 _ _ _ _ _ _ (e.symm.trans e')
    by_contra hne
    have := C41 C1 C2 H H' srs s m c c' z z' hv hv' hne
    exact hs _ (Prod.ext this.1 this.2)
  let g : D → ZMod r := fun x => if h : ∃ c, Good x c then h.choose else 0
  have hg : ∀ x c, Good x c → c = g x := by
    intro x c hc
    have h : ∃ c, Good x c := ⟨c, hc⟩
    simp only [g, dif_pos h]
    exact huniq x _ _ hc h.choose_spec
  have := card_hits query' g (k + 1)
  rw [ZMod.card] at this
  refine le_trans (Nat.mul_le_mul_right _ (card_le_card ?_)) this
  intro f hf
  simp only [mem_filter, mem_univ, true_and] at hf ⊢
  obtain ⟨hs, hv⟩ := hf
  refine ⟨k, by omega, ?_⟩
  rw [hans f k le_rfl]
  set l := Spec.answers query f k with hl
  have hq : query' l = ⟨_, hD l⟩ := by simp only [query']; rw [if_pos (by rw [hl, answers_length])]
  rw [hq]
  have hc := (dleq_verify_ok hv).1
  unfold DLEQ.challenge at hc
  rw [henv f ⟨_, hD l⟩] at hc
  injection hc with hc
  refine hg _ _ ⟨(out l).1, (out l).2.1, (out l).2.2.2, rfl, hs, env f, ?_⟩
  rw [hc]
  exact hv

/-- A hash environment that looks challenges up in a table. -/
def Toy.tableHash (D : Finset (List UInt8)) (f : D → ZMod 13) : HashEnv 13 where
  stream _ msg _ := if h : msg ∈ D then UInt8.ofNat (f ⟨msg, h⟩).val else 0
  frSize := 1
  frFromRandom b := some ((b.headD 0).toNat : ZMod 13)

theorem Toy.tableHash_eq {ε : Type} {persona : List UInt8} (hp : persona.length ≤ 8) (D : Finset (List UInt8)) (f : D → ZMod 13)
    (x : D) : hashToField (ε := ε) (Toy.tableHash D f) persona x.1 = .ok (f x) := by
  unfold hashToField
  rw [if_neg (by omega)]
  have h : ∃ k, ((fun k => (Toy.tableHash D f).frFromRandom (block ((Toy.tableHash D f).stream (padPersona persona) x.1)
      (Toy.tableHash D f).frSize k)) k).isSome := ⟨0, rfl⟩
  show firstSome _ = _
  unfold firstSome
  rw [dif_pos h]
  congr 1
  simp only [Toy.tableHash, block, Option.get_some, List.range_one, List.map_cons, List.map_nil, List.headD_cons,
    Finset.coe_mem, dif_pos, Subtype.coe_eta]
  have hv : (f x).val < 13 := ZMod.val_lt _
  rw [UInt8.toNat_ofNat_of_lt' (by show _ < 256; omega)]
  simp

/-- Non-vacuity of C90: such environments exist, and the bound is not zero. The statement `(5, 11)` is false for the generators
`(1, 2)`; without any look-up the proof `((5, 11), 1, 0)` is accepted when the table answers `1`. -/
example : ∃ (D : Finset (List UInt8)) (f : D → ZMod 13),
    (∀ w : ZMod 13, ((5, 11) : ZMod 13 × ZMod 13) ≠ (w • 1, w • 2)) ∧
    DLEQ.verify (Toy.curve 13) (Toy.curve 13) (Toy.tableHash D f) ((1, 2) : ZMod 13 × ZMod 13) (5, 11) ((5, 11), 1, 0)
      = .ok () := by
  refine ⟨{DLEQ.hashInput (Toy.curve 13) (Toy.curve 13) (1, 2) (5, 11) (5, 11)}, fun _ => 1, by decide, ?_⟩
  have hc := Toy.tableHash_eq (ε := NIZKError) (persona := DLEQ.persona) (by decide) {DLEQ.hashInput (Toy.curve 13) (Toy.curve 13) (1, 2) (5, 11) (5, 11)} (fun _ => 1)
    ⟨_, Finset.mem_singleton_self _⟩
  rw [dleq_verify_eq (Toy.curve 13) (Toy.curve 13) _ (1, 2) (5, 11) ((5, 11), 1, 0) hc]
  decide

end Verif
