import Verif.Props.Knowledge
import Verif.Props.Schnorr

/-!
# With statement and key in the hash: C117

C38 and C46 are false of the code since the challenge of a discrete-log proof does not depend on the statement, and that of a Schnorr
signature does not depend on the public key. Here the same functions with these points added to the hash input.
-/

open Finset

namespace Verif

set_option linter.unusedSectionVars false

section General

variable {X A : Type}

open Classical in
/-- Hitting a target that depends on the answers before. -/
theorem card_hit_dep [Fintype X] [DecidableEq X] [Fintype A] (query : List A → X) (g : List A → X → A) (i : ℕ) :
    (univ.filter fun f : X → A => Spec.Fresh query i f ∧
      f (Spec.point' query i f) = g (Spec.answers query f i) (Spec.point' query i f)).card * Fintype.card A
      ≤ Fintype.card (X → A) := by
  let q : (X → A) → X := Spec.point' query i
  let w : (X → A) → A := fun f => g (Spec.answers query f i) (q f)
  have hq : ∀ f, Spec.Fresh query i f → ∀ v, q (Function.update f (q f) v) = q f := fun f hf v => point'_update hf v
  have hw : ∀ f, Spec.Fresh query i f → ∀ v, w (Function.update f (q f) v) = w f := fun f hf v => by
    simp only [w]
    rw [hq f hf v]
    exact congrArg (fun l => g l (q f)) (answers_update query f _ v i hf)
  have h1 : (univ.filter fun p : (X → A) × A => Spec.Fresh query i p.1 ∧ p.1 (q p.1) = w p.1).card ≤
      (univ.filter fun p : (X → A) × A => p.2 = w p.1).card := by
    apply card_le_card_of_injOn fun p => (Function.update p.1 (q p.1) p.2, p.1 (q p.1))
    · intro p hp
      simp only [coe_filter, mem_univ, true_and, Set.mem_ofPred_eq] at hp ⊢
      rw [hw _ hp.1, hp.2]
    · intro p hp p' hp' h
      simp only [coe_filter, mem_univ, true_and, Set.mem_ofPred_eq, Prod.mk.injEq] at hp hp' h
      obtain ⟨e1, e2⟩ := h
      have e3 : q p.1 = q p'.1 := by rw [← hq _ hp.1 p.2, e1, hq _ hp'.1]
      refine Prod.ext ?_ ?_
      · have := congrArg (fun f => Function.update f (q p.1) (p.1 (q p.1))) e1
        simp only [Function.update_idem, Function.update_eq_self] at this
        rw [this, e2, e3]
        simp
      · have := congrFun e1 (q p.1)
        rw [e3] at this
        rw [← e3, Function.update_self, e3, Function.update_self] at this
        exact this
  have h2 : (univ.filter fun p : (X → A) × A => Spec.Fresh query i p.1 ∧ p.1 (q p.1) = w p.1).card =
      (univ.filter fun f : X → A => Spec.Fresh query i f ∧ f (q f) = w f).card * Fintype.card A := by
    rw [← card_univ, ← card_product]
    congr 1
    ext p
    simp
  have h3 : (univ.filter fun p : (X → A) × A => p.2 = w p.1).card = Fintype.card (X → A) := by
    simp only [card_filter]
    rw [← univ_product_univ, sum_product]
    simp
  rw [h2, h3] at h1
  exact h1

theorem answers_take (query : List A → X) (f : X → A) {i j : ℕ} (h : i ≤ j) : (Spec.answers query f j).take i = Spec.answers query f i := by
  induction j with
  | zero => rw [Nat.le_zero.1 h]; rfl
  | succ j ih =>
    rcases Nat.le_succ_iff.1 h with h | rfl
    · rw [Spec.answers, List.take_append_of_le_length (by rw [answers_length]; exact h), ih h]
    · exact List.take_of_length_le (by rw [answers_length])

open Classical in
/-- Relations between two look-ups: for at most a `k (k+1) / 2 |A|` fraction of the tables one of the first `k` look-ups is answered with
`z`, or a later one with the value `t` wants for it given an earlier one and its answer. -/
theorem card_pairs [Fintype X] [DecidableEq X] [Fintype A] (query : List A → X) (t : X → A → X → A) (z : A) (k : ℕ) :
    2 * ((univ.filter fun f : X → A => ∃ j < k, Spec.Fresh query j f ∧ (f (Spec.point' query j f) = z ∨
      ∃ i < j, f (Spec.point' query j f) = t (Spec.point' query i f) (f (Spec.point' query i f)) (Spec.point' query j f))).card *
        Fintype.card A) ≤ k * (k + 1) * Fintype.card (X → A) := by
  induction k with
  | zero => simp
  | succ k ih =>
    have hN := fun i (hi : i < k + 1) => card_hit_dep query
      (fun l x => if i = k then z else t (query (l.take i)) (l.getD i z) x) k
    have hsub : (univ.filter fun f : X → A => ∃ j < k + 1, Spec.Fresh query j f ∧ (f (Spec.point' query j f) = z ∨
        ∃ i < j, f (Spec.point' query j f) = t (Spec.point' query i f) (f (Spec.point' query i f)) (Spec.point' query j f))) ⊆
      (univ.filter fun f : X → A => ∃ j < k, Spec.Fresh query j f ∧ (f (Spec.point' query j f) = z ∨
        ∃ i < j, f (Spec.point' query j f) = t (Spec.point' query i f) (f (Spec.point' query i f)) (Spec.point' query j f))) ∪
      (range (k + 1)).biUnion fun i => univ.filter fun f : X → A => Spec.Fresh query k f ∧
        f (Spec.point' query k f) = (fun (l : List A) x => if i = k then z else t (query (l.take i)) (l.getD i z) x)
          (Spec.answers query f k) (Spec.point' query k f) := by
      intro f hf
      simp only [mem_filter, mem_univ, true_and, mem_union, mem_biUnion, mem_range] at hf ⊢
      obtain ⟨j, hj, hfr, h⟩ := hf
      rcases Nat.lt_succ_iff_lt_or_eq.1 hj with hj | rfl
      · exact Or.inl ⟨j, hj, hfr, h⟩
      · right
        rcases h with h | ⟨i, hi, h⟩
        · exact ⟨j, by omega, hfr, by rw [if_pos rfl]; exact h⟩
        · refine ⟨i, by omega, hfr, ?_⟩
          rw [if_neg (by omega), h]
          have e1 : (Spec.answers query f j).take i = Spec.answers query f i := answers_take query f hi.le
          have e2 : (Spec.answers query f j).getD i z = f (Spec.point' query i f) := by
            have := answers_take query f (show i + 1 ≤ j by omega)
            rw [List.getD_eq_getElem?_getD, ← List.getElem?_take_of_lt (Nat.lt_succ_self i), this, Spec.answers,
              List.getElem?_append_right (by rw [answers_length]), answers_length]
            simp [Spec.point']
          rw [e1, e2]
          rfl
    have hb : ((range (k + 1)).biUnion fun i => univ.filter fun f : X → A => Spec.Fresh query k f ∧
        f (Spec.point' query k f) = (fun (l : List A) x => if i = k then z else t (query (l.take i)) (l.getD i z) x)
          (Spec.answers query f k) (Spec.point' query k f)).card * Fintype.card A ≤ (k + 1) * Fintype.card (X → A) := by
      refine (Nat.mul_le_mul_right _ card_biUnion_le).trans ?_
      rw [sum_mul]
      refine (sum_le_sum fun i hi => hN i (mem_range.1 hi)).trans ?_
      simp
    have := (Nat.mul_le_mul_right (Fintype.card A) ((card_le_card hsub).trans (card_union_le _ _)))
    rw [add_mul] at this
    nlinarith

end General

variable {r : ℕ} [Fact r.Prime] {G : Type} [AddCommGroup G] [DecidableEq G] [Module (ZMod r) G]

/-! ### The functions with the longer hash input -/

/-- dlk/mod.rs:68-79 with the statement hashed between generator and commitment. -/
def Spec.dlkInput (C : Curve G) (g stmnt gr : G) : List UInt8 := C.codec.enc g ++ (C.codec.enc stmnt ++ C.codec.enc gr)

/-- `prove` (dlk/mod.rs:56-87) with this challenge. -/
noncomputable def Spec.dlkProve (C : Curve G) (H : HashEnv r) (g : G) (rng : Rng r) (w : ZMod r) :
    Res NIZKError (DLK.Proof r G × Rng r) := do
  let nonce := rng 0
  let gr := mulRepr g nonce
  let c ← hashToField H DLK.persona (Spec.dlkInput C g (mulRepr g w) gr)
  let z := nonce - w * c
  .ok ((gr, c, z), rng.drop 1)

/-- `verify` (dlk/mod.rs:90-121) with this challenge. -/
noncomputable def Spec.dlkVerify (C : Curve G) (H : HashEnv r) (g : G) (stmnt : G) (proof : DLK.Proof r G) : Res NIZKError Unit := do
  let c ← hashToField H DLK.persona (Spec.dlkInput C g stmnt proof.1)
  let check := mulRepr g proof.2.2 + mulRepr stmnt c
  if check ≠ proof.1 ∨ c ≠ proof.2.1 then .err .DLKVerify else .ok ()

/-- schnorr/mod.rs:80 with the public key hashed between generator and commitment. -/
def Spec.sigInput (C : Curve G) (g pk : G) (msg : List UInt8) (vg : G) : List UInt8 :=
  msg ++ (C.codec.enc g ++ (C.codec.enc pk ++ C.codec.enc vg))

/-- `sign` (schnorr/mod.rs:55-89) with this challenge. -/
noncomputable def Spec.sigSign (C : Curve G) (H : HashEnv r) (g : G) (rng : Rng r) (sk : ZMod r) (msg : List UInt8) :
    Res SignatureError (Schnorr.Sig r G × Rng r) := do
  let v := rng 0
  let vg := mulRepr g v
  let c ← hashToField H Schnorr.persona (Spec.sigInput C g (mulRepr g sk) msg vg)
  .ok ((vg, v - sk * c), rng.drop 1)

/-- `verify` (schnorr/mod.rs:93-126) with this challenge. -/
noncomputable def Spec.sigVerify (C : Curve G) (H : HashEnv r) (g pk : G) (msg : List UInt8) (sig : Schnorr.Sig r G) :
    Res SignatureError Unit := do
  let c ← hashToField H Schnorr.persona (Spec.sigInput C g pk msg sig.1)
  let check := mulRepr g sig.2 + mulRepr pk c
  if check ≠ sig.1 then .err .SchnorrVerify else .ok ()

theorem boundDlk_iff (C : Curve G) (H : HashEnv r) (g stmnt : G) (proof : DLK.Proof r G) :
    Spec.dlkVerify C H g stmnt proof = .ok () ↔ hashToField (ε := NIZKError) H DLK.persona (Spec.dlkInput C g stmnt proof.1) = .ok proof.2.1 ∧
      proof.2.2 • g + proof.2.1 • stmnt = proof.1 := by
  unfold Spec.dlkVerify
  rw [Res.bind_eq_ok]
  simp only [mulRepr_eq_smul]
  constructor
  · rintro ⟨c, hc, h⟩
    split at h
    · cases h
    · next hn =>
      push Not at hn
      rw [hc, ← hn.2]
      exact ⟨rfl, hn.1⟩
  · rintro ⟨hc, h⟩
    exact ⟨_, hc, if_neg (by push Not; exact ⟨h, rfl⟩)⟩

theorem boundSig_iff (C : Curve G) (H : HashEnv r) (g pk : G) (msg : List UInt8) (sig : Schnorr.Sig r G) :
    Spec.sigVerify C H g pk msg sig = .ok () ↔ ∃ c, hashToField (ε := SignatureError) H Schnorr.persona (Spec.sigInput C g pk msg sig.1) = .ok c ∧
      sig.2 • g + c • pk = sig.1 := by
  unfold Spec.sigVerify
  rw [Res.bind_eq_ok]
  simp only [mulRepr_eq_smul]
  refine exists_congr fun c => and_congr Iff.rfl ?_
  split
  · next h => exact ⟨fun h' => (by cases h'), fun h' => absurd h' h⟩
  · next h => exact ⟨fun _ => not_not.1 h, fun _ => rfl⟩

/-- **C117** (honest use). Proofs and signatures are made whenever the hash terminates, and verify. -/
theorem C117_complete (C : Curve G) (H : HashEnv r) (g : G) (rng : Rng r) (w : ZMod r) :
    ((HashTotal H → ∃ x, Spec.dlkProve C H g rng w = .ok x) ∧
      ∀ p rng', Spec.dlkProve C H g rng w = .ok (p, rng') → Spec.dlkVerify C H g (w • g) p = .ok ()) ∧
    (∀ msg : List UInt8, (HashTotal H → ∃ x, Spec.sigSign C H g rng w msg = .ok x) ∧
      ∀ s rng', Spec.sigSign C H g rng w msg = .ok (s, rng') → Spec.sigVerify C H g (w • g) msg s = .ok ()) := by
  refine ⟨⟨fun hH => ?_, ?_⟩, fun msg => ⟨fun hH => ?_, ?_⟩⟩
  · obtain ⟨c, hc⟩ := hashToField_total (ε := NIZKError) hH dlk_persona_length
      (Spec.dlkInput C g (mulRepr g w) (mulRepr g (rng 0)))
    exact ⟨_, (Res.bind_eq_ok ..).2 ⟨c, hc, rfl⟩⟩
  · intro p rng' h
    unfold Spec.dlkProve at h
    simp only [mulRepr_eq_smul] at h
    rw [Res.bind_eq_ok] at h
    obtain ⟨c, hc, h⟩ := h
    obtain ⟨rfl, -⟩ := Prod.mk.inj (Res.ok.inj h)
    rw [boundDlk_iff]
    refine ⟨hc, ?_⟩
    simp only
    rw [smul_smul, ← add_smul]
    congr 1
    ring
  · obtain ⟨c, hc⟩ := hashToField_total (ε := SignatureError) hH schnorr_persona_length
      (Spec.sigInput C g (mulRepr g w) msg (mulRepr g (rng 0)))
    exact ⟨_, (Res.bind_eq_ok ..).2 ⟨c, hc, rfl⟩⟩
  · intro s rng' h
    unfold Spec.sigSign at h
    simp only [mulRepr_eq_smul] at h
    rw [Res.bind_eq_ok] at h
    obtain ⟨c, hc, h⟩ := h
    obtain ⟨rfl, -⟩ := Prod.mk.inj (Res.ok.inj h)
    rw [boundSig_iff]
    refine ⟨c, hc, ?_⟩
    simp only
    rw [smul_smul, ← add_smul]
    congr 1
    ring

open Classical in
/-- **C117** (discrete-log proofs). The prover may choose the statement as it likes, also after its look-ups. If it convinces `verify` of a
statement with the property `Q` for the tables in `T`, then running it twice gives the logarithm of its statement, which has the property,
for `W` pairs of a table and a new answer, `r |T|² ≤ (k + 1) N (W + |T|)`. -/
theorem C117_dlk (C : Curve G) (hl : C.codec.Lawful) (g : G) (Q : G → Prop) (D : Finset (List UInt8)) (env : (D → ZMod r) → HashEnv r)
    (henv : ∀ f (x : D), hashToField (ε := NIZKError) (env f) DLK.persona x.1 = .ok (f x))
    (k : ℕ) (query : List (ZMod r) → D) (out : List (ZMod r) → G × DLK.Proof r G)
    (hD : ∀ l, Spec.dlkInput C g (out l).1 (out l).2.1 ∈ D) :
    let run : (D → ZMod r) → G × DLK.Proof r G := fun f => out (Spec.answers query f k)
    let rerun : (D → ZMod r) → ZMod r → G × DLK.Proof r G := fun f v =>
      run (Function.update f ⟨Spec.dlkInput C g (run f).1 (run f).2.1, hD _⟩ v)
    let T := univ.filter fun f : D → ZMod r => Q (run f).1 ∧ Spec.dlkVerify C (env f) g (run f).1 (run f).2 = .ok ()
    let W := univ.filter fun p : (D → ZMod r) × ZMod r => Q (run p.1).1 ∧
      (run p.1).1 = (((run p.1).2.2.2 - (rerun p.1 p.2).2.2.2) * ((rerun p.1 p.2).2.2.1 - (run p.1).2.2.1)⁻¹) • g
    r * T.card ^ 2 ≤ (k + 1) * Fintype.card (D → ZMod r) * (W.card + T.card) := by
  intro run rerun T W
  have h := fork_crit query (fun l => (⟨Spec.dlkInput C g (out l).1 (out l).2.1, hD l⟩ : D)) k T
  rw [ZMod.card] at h
  refine le_trans h (Nat.mul_le_mul_left _ (Nat.add_le_add_right (card_le_card ?_) _))
  intro p hp
  simp only [mem_filter, mem_univ, true_and, T, W] at hp ⊢
  obtain ⟨⟨hQ, h1⟩, ⟨-, h2⟩, h3, h4⟩ := hp
  refine ⟨hQ, ?_⟩
  set f' := Function.update p.1 ⟨Spec.dlkInput C g (out (Spec.answers query p.1 k)).1 (out (Spec.answers query p.1 k)).2.1, hD _⟩ p.2 with hf'
  have hrr : rerun p.1 p.2 = run f' := rfl
  rw [hrr]
  obtain ⟨hs, hx⟩ := hl.append_inj (List.append_cancel_left (Subtype.mk.inj h3))
  have hs : (run f').1 = (run p.1).1 := hs
  have hx : (run f').2.1 = (run p.1).2.1 := hl.inj hx
  obtain ⟨e1, q1⟩ := (boundDlk_iff ..).1 h1
  obtain ⟨e2, q2⟩ := (boundDlk_iff ..).1 h2
  have e1 : (run p.1).2.2.1 = p.1 ⟨Spec.dlkInput C g (out (Spec.answers query p.1 k)).1 (out (Spec.answers query p.1 k)).2.1, hD _⟩ :=
    Res.ok.inj (e1.symm.trans (henv p.1 ⟨_, hD (Spec.answers query p.1 k)⟩))
  have e2 : (run f').2.2.1 = p.2 := by
    refine Res.ok.inj (e2.symm.trans ((henv f' ⟨_, hD (Spec.answers query f' k)⟩).trans ?_))
    rw [h3, hf', Function.update_self]
  have hne : (run f').2.2.1 - (run p.1).2.2.1 ≠ 0 := sub_ne_zero.2 (by rw [e1, e2]; exact h4)
  have q1 : (run p.1).2.2.2 • g + (run p.1).2.2.1 • (run p.1).1 = (run p.1).2.1 := q1
  have q2 : (run f').2.2.2 • g + (run f').2.2.1 • (run f').1 = (run f').2.1 := q2
  rw [hs, hx, ← q1] at q2
  rw [mul_comm, mul_smul, eq_inv_smul_iff₀ hne, sub_smul, sub_smul, sub_eq_sub_iff_add_eq_add, add_comm, q2]

open Classical in
/-- **C117** (false statements). However the prover chooses the statement, for at most a `(k + 1) / r` fraction of the tables it convinces
`verify` of a statement without logarithm. -/
theorem C117_sound (C : Curve G) (hl : C.codec.Lawful) (g : G) (D : Finset (List UInt8)) (env : (D → ZMod r) → HashEnv r)
    (henv : ∀ f (x : D), hashToField (ε := NIZKError) (env f) DLK.persona x.1 = .ok (f x))
    (k : ℕ) (query : List (ZMod r) → D) (out : List (ZMod r) → G × DLK.Proof r G)
    (hD : ∀ l, Spec.dlkInput C g (out l).1 (out l).2.1 ∈ D) :
    r * (univ.filter fun f : D → ZMod r => (∀ w : ZMod r, (out (Spec.answers query f k)).1 ≠ w • g) ∧
      Spec.dlkVerify C (env f) g (out (Spec.answers query f k)).1 (out (Spec.answers query f k)).2 = .ok ()).card ≤
        (k + 1) * Fintype.card (D → ZMod r) := by
  have h := C117_dlk C hl g (fun s => ∀ w : ZMod r, s ≠ w • g) D env henv k query out hD
  simp only at h
  rw [show (univ.filter fun p : (D → ZMod r) × ZMod r => (∀ w : ZMod r, (out (Spec.answers query p.1 k)).1 ≠ w • g) ∧ _) = ∅ from
    filter_eq_empty_iff.2 fun p _ hp => hp.1 _ hp.2, card_empty, zero_add] at h
  set t := (univ.filter fun f : D → ZMod r => (∀ w : ZMod r, (out (Spec.answers query f k)).1 ≠ w • g) ∧
      Spec.dlkVerify C (env f) g (out (Spec.answers query f k)).1 (out (Spec.answers query f k)).2 = .ok ()).card with ht
  rcases Nat.eq_zero_or_pos t with h0 | h0
  · rw [h0]; simp
  · refine Nat.le_of_mul_le_mul_right ?_ h0
    calc r * t * t = r * t ^ 2 := by ring
      _ ≤ _ := h

/-! ### One signature, two keys -/

theorem sigInput_inj (C : Curve G) (hl : C.codec.Lawful) {n : ℕ} (hf : C.codec.Fixed n) {g pk pk' v v' : G} {m m' : List UInt8}
    (h : Spec.sigInput C g pk m v = Spec.sigInput C g pk' m' v') : m = m' ∧ pk = pk' ∧ v = v' := by
  unfold Spec.sigInput at h
  obtain ⟨e1, h⟩ := List.append_inj' h (by simp [hf g, hf pk, hf pk', hf v, hf v'])
  obtain ⟨e2, h⟩ := hl.append_inj (List.append_cancel_left h)
  exact ⟨e1, e2, hl.inj h⟩

open Classical in
/-- The answer at the second point that makes one signature valid at both. -/
noncomputable def Spec.wanted (C : Curve G) (g : G) (D : Finset (List UInt8)) (x : D) (c : ZMod r) (y : D) : ZMod r :=
  if h : ∃ s : ZMod r, ∃ pk m pk' m' v, x.1 = Spec.sigInput C g pk m v ∧ y.1 = Spec.sigInput C g pk' m' v ∧ pk' ≠ 0 ∧ c • pk = s • pk'
  then h.choose else 0

theorem wanted_eq (C : Curve G) (hl : C.codec.Lawful) {n : ℕ} (hf : C.codec.Fixed n) (g : G) (D : Finset (List UInt8)) {x y : D} {c s : ZMod r}
    {pk pk' v : G} {m m' : List UInt8} (hx : x.1 = Spec.sigInput C g pk m v) (hy : y.1 = Spec.sigInput C g pk' m' v) (h0 : pk' ≠ 0)
    (h : c • pk = s • pk') : Spec.wanted C g D x c y = s := by
  have hex : ∃ s : ZMod r, ∃ pk m pk' m' v, x.1 = Spec.sigInput C g pk m v ∧ y.1 = Spec.sigInput C g pk' m' v ∧ pk' ≠ 0 ∧ c • pk = s • pk' :=
    ⟨s, pk, m, pk', m', v, hx, hy, h0, h⟩
  rw [Spec.wanted, dif_pos hex]
  obtain ⟨pk1, m1, pk1', m1', v1, hx1, hy1, h01, h1⟩ := hex.choose_spec
  obtain ⟨-, rfl, -⟩ := sigInput_inj C hl hf (hx.symm.trans hx1)
  obtain ⟨-, rfl, -⟩ := sigInput_inj C hl hf (hy.symm.trans hy1)
  exact smul_left_injective _ h0 (h1.symm.trans h)

open Classical in
/-- **C117** (one signature, one signer). An adversary that makes `k` look-ups and chooses keys, messages and signature outputs for at most a
`(k+2)(k+3) / 2 r` fraction of the tables a signature that is valid for two different pairs of key and message (not both keys zero). -/
theorem C117_key (C : Curve G) (hl : C.codec.Lawful) {n : ℕ} (hfix : C.codec.Fixed n) (g : G)
    (D : Finset (List UInt8)) (env : (D → ZMod r) → HashEnv r)
    (henv : ∀ f (x : D), hashToField (ε := SignatureError) (env f) Schnorr.persona x.1 = .ok (f x))
    (k : ℕ) (query : List (ZMod r) → D) (out : List (ZMod r) → (G × List UInt8) × (G × List UInt8) × Schnorr.Sig r G)
    (hD : ∀ l, Spec.sigInput C g (out l).1.1 (out l).1.2 (out l).2.2.1 ∈ D)
    (hD' : ∀ l, Spec.sigInput C g (out l).2.1.1 (out l).2.1.2 (out l).2.2.1 ∈ D) :
    let run : (D → ZMod r) → (G × List UInt8) × (G × List UInt8) × Schnorr.Sig r G := fun f => out (Spec.answers query f k)
    2 * ((univ.filter fun f : D → ZMod r => (run f).1 ≠ (run f).2.1 ∧ ((run f).1.1 ≠ 0 ∨ (run f).2.1.1 ≠ 0) ∧
      Spec.sigVerify C (env f) g (run f).1.1 (run f).1.2 (run f).2.2 = .ok () ∧
      Spec.sigVerify C (env f) g (run f).2.1.1 (run f).2.1.2 (run f).2.2 = .ok ()).card * r) ≤
        (k + 2) * (k + 3) * Fintype.card (D → ZMod r) := by
  intro run
  let in1 : List (ZMod r) → D := fun l => ⟨_, hD l⟩
  let in2 : List (ZMod r) → D := fun l => ⟨_, hD' l⟩
  let query1 : List (ZMod r) → D := fun l => if l.length = k then in1 l else query l
  let query' : List (ZMod r) → D := fun l => if l.length = k + 1 then in2 (l.take k) else query1 l
  have hp1 : ∀ f, Spec.point' query' k f = in1 (Spec.answers query f k) := fun f => by
    have e : Spec.answers query' f k = Spec.answers query f k :=
      (answers_last query1 (fun l => in2 (l.take k)) (k + 1) f (by omega)).trans (answers_last query in1 k f le_rfl)
    rw [Spec.point', e]
    simp only [query', query1]
    rw [if_neg (by rw [answers_length]; omega), if_pos (answers_length ..)]
  have hp2 : ∀ f, Spec.point' query' (k + 1) f = in2 (Spec.answers query f k) := fun f => by
    have e : (Spec.answers query1 f (k + 1)).take k = Spec.answers query f k :=
      (answers_take query1 f (Nat.le_succ k)).trans (answers_last query in1 k f le_rfl)
    rw [show Spec.point' query' (k + 1) f = _ from point'_last query1 (fun l => in2 (l.take k)) (k + 1) f, e]
  have h := card_pairs query' (Spec.wanted C g D) 0 (k + 2)
  rw [ZMod.card] at h
  refine le_trans (Nat.mul_le_mul_left _ (Nat.mul_le_mul_right _ (card_le_card ?_))) h
  intro f hf
  simp only [mem_filter, mem_univ, true_and] at hf ⊢
  obtain ⟨hne, h0, hv1, hv2⟩ := hf
  obtain ⟨c1, hc1, e1⟩ := (boundSig_iff ..).1 hv1
  obtain ⟨c2, hc2, e2⟩ := (boundSig_iff ..).1 hv2
  have hc1 : f (in1 (Spec.answers query f k)) = c1 := Res.ok.inj ((henv f (in1 (Spec.answers query f k))).symm.trans hc1)
  have hc2 : f (in2 (Spec.answers query f k)) = c2 := Res.ok.inj ((henv f (in2 (Spec.answers query f k))).symm.trans hc2)
  have hx1 : (in1 (Spec.answers query f k)).1 = Spec.sigInput C g (run f).1.1 (run f).1.2 (run f).2.2.1 := rfl
  have hx2 : (in2 (Spec.answers query f k)).1 = Spec.sigInput C g (run f).2.1.1 (run f).2.1.2 (run f).2.2.1 := rfl
  have hcc : c1 • (run f).1.1 = c2 • (run f).2.1.1 := add_left_cancel (e1.trans e2.symm)
  have hxne : in1 (Spec.answers query f k) ≠ in2 (Spec.answers query f k) := fun he => by
    obtain ⟨hm, hk, -⟩ := sigInput_inj C hl hfix (hx1.symm.trans ((congrArg Subtype.val he).trans hx2))
    exact hne (Prod.ext hk hm)
  rw [← hp1] at hc1 hx1 hxne
  rw [← hp2] at hc2 hx2 hxne
  -- first look-ups at the two points
  have hfirst : ∀ a < k + 2, ∃ i < k + 2, Spec.Fresh query' i f ∧ Spec.point' query' i f = Spec.point' query' a f := by
    intro a ha
    have hex : ∃ i, Spec.point' query' i f = Spec.point' query' a f := ⟨a, rfl⟩
    refine ⟨Nat.find hex, lt_of_le_of_lt (Nat.find_min' hex rfl) ha, fun j hj he => ?_, Nat.find_spec hex⟩
    exact Nat.find_min hex hj (he.trans (Nat.find_spec hex))
  obtain ⟨i1, hi1, hf1, hq1⟩ := hfirst k (by omega)
  obtain ⟨i2, hi2, hf2, hq2⟩ := hfirst (k + 1) (by omega)
  rw [← hq1] at hc1 hx1 hxne
  rw [← hq2] at hc2 hx2 hxne
  have hii : i1 ≠ i2 := fun e => hxne (by rw [e])
  rcases lt_or_gt_of_ne hii with hlt | hlt
  · by_cases hz : (run f).2.1.1 = 0
    · refine ⟨i1, hi1, hf1, Or.inl ?_⟩
      rw [hz, smul_zero] at hcc
      rw [hc1]
      exact (smul_eq_zero.1 hcc).resolve_right (h0.resolve_right (not_not.2 hz))
    · exact ⟨i2, hi2, hf2, Or.inr ⟨i1, hlt, by rw [hc1, hc2]; exact (wanted_eq C hl hfix g D hx1 hx2 hz hcc).symm⟩⟩
  · by_cases hz : (run f).1.1 = 0
    · refine ⟨i2, hi2, hf2, Or.inl ?_⟩
      rw [hz, smul_zero] at hcc
      rw [hc2]
      exact (smul_eq_zero.1 hcc.symm).resolve_right (h0.resolve_left (not_not.2 hz))
    · exact ⟨i1, hi1, hf1, Or.inr ⟨i2, hlt, by rw [hc1, hc2]; exact (wanted_eq C hl hfix g D hx2 hx1 hz hcc.symm).symm⟩⟩

/-- The exception in C117_key is real: under the key zero every `(z g, z)` is valid for all messages. -/
example (C : Curve G) (H : HashEnv r) (g : G) (z c c' : ZMod r) (m m' : List UInt8)
    (h : hashToField (ε := SignatureError) H Schnorr.persona (Spec.sigInput C g 0 m (z • g)) = .ok c)
    (h' : hashToField (ε := SignatureError) H Schnorr.persona (Spec.sigInput C g 0 m' (z • g)) = .ok c') :
    Spec.sigVerify C H g 0 m (z • g, z) = .ok () ∧ Spec.sigVerify C H g 0 m' (z • g, z) = .ok () :=
  ⟨(boundSig_iff ..).2 ⟨c, h, by simp⟩, (boundSig_iff ..).2 ⟨c', h', by simp⟩⟩

/-- Non-vacuity of C117: the honest prover for the statement `5` makes one look-up and convinces the verifier for every table; and the
forgery of C38 (commitment 3, response 1, statement computed from the challenge 2 of the code) is refused as soon as the challenge at the
longer input differs. -/
example : (∃ (D : Finset (List UInt8)) (query : List (ZMod 13) → D) (out : List (ZMod 13) → ZMod 13 × DLK.Proof 13 (ZMod 13)),
    (∀ l, Spec.dlkInput (Toy.curve 13) (1 : ZMod 13) (out l).1 (out l).2.1 ∈ D) ∧
    (∀ f (x : D), hashToField (ε := NIZKError) (Toy.tableHash D f) DLK.persona x.1 = .ok (f x)) ∧
    ∀ f, Spec.dlkVerify (Toy.curve 13) (Toy.tableHash D f) (1 : ZMod 13) (out (Spec.answers query f 1)).1
      (out (Spec.answers query f 1)).2 = .ok ()) ∧
    ∀ (H : HashEnv 13) (c : ZMod 13), c ≠ 2 →
      hashToField (ε := NIZKError) H DLK.persona (Spec.dlkInput (Toy.curve 13) (1 : ZMod 13) 1 3) = .ok c →
      Spec.dlkVerify (Toy.curve 13) H (1 : ZMod 13) 1 (3, 2, 1) ≠ .ok () := by
  refine ⟨?_, fun H c hc h hv => ?_⟩
  · let x := Spec.dlkInput (Toy.curve 13) (1 : ZMod 13) 5 3
    have hx : x ∈ ({x} : Finset (List UInt8)) := Finset.mem_singleton_self _
    have ht : ∀ f (y : ({x} : Finset (List UInt8))),
        hashToField (ε := NIZKError) (Toy.tableHash {x} f) DLK.persona y.1 = .ok (f y) :=
      fun f y => Toy.tableHash_eq (by decide) {x} f y
    refine ⟨{x}, fun _ => ⟨x, hx⟩, fun l => (5, 3, l.headD 0, 3 - 5 * l.headD 0), fun l => hx, ht, ?_⟩
    intro f
    rw [boundDlk_iff]
    refine ⟨ht f ⟨x, hx⟩, ?_⟩
    simp only [smul_eq_mul]
    ring
  · have := ((boundDlk_iff ..).1 hv).1
    exact hc (Res.ok.inj (h.symm.trans this))

end Verif
