import Verif.Props.Knowledge
import Verif.Props.Adversary
import Verif.Props.Degree

/-!
# Schnorr signatures against chosen-message attacks: C94

The challenge hash is a random table. A forger with `k` steps looks up a hash or asks for a signature in each step, choosing the
step from the earlier replies, and finally outputs a message and a signature. It wins if the signature is valid and it never asked
for one on this message.
-/

open Finset

namespace Verif

set_option linter.unusedSectionVars false

variable {r : ℕ} [Fact r.Prime] {G : Type} [AddCommGroup G] [DecidableEq G] [Module (ZMod r) G]

/-- The reply to a step: a hash value or a signature. -/
abbrev Spec.Reply (r : ℕ) (G : Type) : Type := ZMod r ⊕ Schnorr.Sig r G

/-- A forger: the next step (a look-up or a message to be signed) and the output, from the replies so far. -/
structure Spec.Forger (r : ℕ) (G : Type) (D : Finset (List UInt8)) where
  act : List (Spec.Reply r G) → D ⊕ List UInt8
  out : List (Spec.Reply r G) → List UInt8 × Schnorr.Sig r G

variable {D : Finset (List UInt8)}

/-- The forger asked for a signature on `m`. -/
def Spec.Forger.Asked (A : Spec.Forger r G D) (l : List (Spec.Reply r G)) (m : List UInt8) : Prop :=
  ∃ j < l.length, A.act (l.take j) = .inr m

/-- The reply of the signer with secret key `sk`, fresh scalar `v` and hash table `f`. -/
noncomputable def Spec.realReply (C : Curve G) (H : HashEnv r) (g : G) (sk : ZMod r) (f : D → ZMod r) (A : Spec.Forger r G D)
    (v : ZMod r) (l : List (Spec.Reply r G)) : Spec.Reply r G :=
  match A.act l with
  | .inl x => .inl (f x)
  | .inr m => match Schnorr.sign C H g (fun _ => v) sk m with
    | .ok (sig, _) => .inr sig
    | _ => .inr (0, 0)

/-- The replies to the first `i` steps; the signer uses the scalar `ρ i` in step `i`. -/
noncomputable def Spec.real (C : Curve G) (H : HashEnv r) (g : G) (sk : ZMod r) (f : D → ZMod r) (A : Spec.Forger r G D)
    (ρ : ℕ → ZMod r) : ℕ → List (Spec.Reply r G)
  | 0 => []
  | i + 1 => Spec.real C H g sk f A ρ i ++ [Spec.realReply C H g sk f A (ρ i) (Spec.real C H g sk f A ρ i)]

/-- One step of the simulation without the secret key: signatures are made up from a response `s i` and a challenge `c i`, and the
hash is programmed to return this challenge. -/
noncomputable def Spec.simStep (C : Curve G) (g pk : G) (A : Spec.Forger r G D) (s c : ℕ → ZMod r)
    (st : List (Spec.Reply r G) × List (List UInt8 × ZMod r)) (a : ZMod r) :
    List (Spec.Reply r G) × List (List UInt8 × ZMod r) :=
  match A.act st.1 with
  | .inl x => (st.1 ++ [.inl ((st.2.lookup x.1).getD a)], st.2)
  | .inr m => (st.1 ++ [.inr (s st.1.length • g + c st.1.length • pk, s st.1.length)],
      (Schnorr.hashInput C g m (s st.1.length • g + c st.1.length • pk), c st.1.length) :: st.2)

/-- The simulation, from the hash answers. -/
noncomputable def Spec.simState (C : Curve G) (g pk : G) (A : Spec.Forger r G D) (s c : ℕ → ZMod r) (l : List (ZMod r)) :
    List (Spec.Reply r G) × List (List UInt8 × ZMod r) :=
  l.foldl (Spec.simStep C g pk A s c) ([], [])

/-- The look-ups of the simulation (a dummy one when a signature is asked for). -/
noncomputable def Spec.simQuery (C : Curve G) (g pk : G) (A : Spec.Forger r G D) (d : D) (s c : ℕ → ZMod r)
    (l : List (ZMod r)) : D :=
  match A.act (Spec.simState C g pk A s c l).1 with
  | .inl x => x
  | .inr _ => d

/-- The replies the simulation gives when the hash is the table `f`. -/
noncomputable def Spec.simulate (C : Curve G) (g pk : G) (A : Spec.Forger r G D) (d : D) (k : ℕ) (f : D → ZMod r)
    (s c : ℕ → ZMod r) : List (Spec.Reply r G) :=
  (Spec.simState C g pk A s c (Spec.answers (Spec.simQuery C g pk A d s c) f k)).1

/-! ### The real game -/

section Real

variable (C : Curve G) (H : HashEnv r) (g : G) (sk : ZMod r) (f : D → ZMod r) (A : Spec.Forger r G D)

theorem real_length (ρ : ℕ → ZMod r) (i : ℕ) : (Spec.real C H g sk f A ρ i).length = i := by
  induction i with
  | zero => rfl
  | succ i ih => rw [Spec.real, List.length_append, ih]; rfl

theorem real_take (ρ : ℕ → ZMod r) {i j : ℕ} (h : j ≤ i) :
    (Spec.real C H g sk f A ρ i).take j = Spec.real C H g sk f A ρ j := by
  induction i with
  | zero => obtain rfl : j = 0 := by omega
            rfl
  | succ i ih =>
    rcases Nat.lt_or_ge i j with hj | hj
    · obtain rfl : j = i + 1 := by omega
      rw [List.take_of_length_le (by rw [real_length])]
    · rw [Spec.real, List.take_append_of_le_length (by rw [real_length]; exact hj), ih hj]

theorem real_congr {ρ ρ' : ℕ → ZMod r} {i : ℕ} (h : ∀ j < i, ρ j = ρ' j) :
    Spec.real C H g sk f A ρ i = Spec.real C H g sk f A ρ' i := by
  induction i with
  | zero => rfl
  | succ i ih => rw [Spec.real, Spec.real, ih fun j hj => h j (by omega), h i (by omega)]

/-- The signing requests stay within the table's domain. -/
def Spec.Forger.SignsIn (C : Curve G) (g : G) (A : Spec.Forger r G D) : Prop :=
  ∀ l m, A.act l = .inr m → ∀ v : ZMod r, Schnorr.hashInput C g m (v • g) ∈ D

/-- The point of the table that a step uses. -/
def ptOf {C : Curve G} {g : G} {A : Spec.Forger r G D} (hs : A.SignsIn C g) (l : List (Spec.Reply r G)) (v : ZMod r) : D :=
  match h : A.act l with
  | .inl x => x
  | .inr m => ⟨Schnorr.hashInput C g m (v • g), hs l m h v⟩

variable {C g A}

theorem ptOf_inl (hs : A.SignsIn C g) {l : List (Spec.Reply r G)} {x : D} (h : A.act l = .inl x) (v : ZMod r) :
    ptOf hs l v = x := by
  unfold ptOf
  split
  · rename_i y hy
    rw [h] at hy
    exact (Sum.inl.inj hy).symm
  · rename_i m hm
    rw [h] at hm
    cases hm

theorem ptOf_inr (hs : A.SignsIn C g) {l : List (Spec.Reply r G)} {m : List UInt8} (h : A.act l = .inr m) (v : ZMod r) :
    (ptOf hs l v).1 = Schnorr.hashInput C g m (v • g) := by
  unfold ptOf
  split
  · rename_i y hy
    rw [h] at hy
    cases hy
  · rename_i m' hm
    rw [h] at hm
    rw [Sum.inr.inj hm]

theorem realReply_sign (hs : A.SignsIn C g)
    (hH : ∀ x : D, hashToField (ε := SignatureError) H Schnorr.persona x.1 = .ok (f x))
    {l : List (Spec.Reply r G)} {m : List UInt8} (h : A.act l = .inr m) (v : ZMod r) :
    Spec.realReply C H g sk f A v l = .inr (v • g, v - sk * f (ptOf hs l v)) := by
  have hc : Schnorr.challenge C H g m (v • g) = .ok (f (ptOf hs l v)) := by
    unfold Schnorr.challenge
    rw [← ptOf_inr hs h]
    exact hH _
  have : Schnorr.sign C H g (fun _ => v) sk m = .ok ((v • g, v - sk * f (ptOf hs l v)), Rng.drop (fun _ => v) 1) := by
    simp only [Schnorr.sign, mulRepr_eq_smul, hc, Res.bind_ok']
  simp only [Spec.realReply, h, this]

theorem realReply_hash {l : List (Spec.Reply r G)} {x : D} (h : A.act l = .inl x) (v : ZMod r) :
    Spec.realReply C H g sk f A v l = .inl (f x) := by
  simp only [Spec.realReply, h]

end Real

/-- A step asks for a signature. -/
def Spec.Forger.Signs (A : Spec.Forger r G D) (l : List (Spec.Reply r G)) : Prop := ∃ m, A.act l = .inr m

/-- A signature uses a hash value that an earlier step used. -/
def Bad (C : Curve G) (H : HashEnv r) (g : G) (sk : ZMod r) (f : D → ZMod r) (A : Spec.Forger r G D) (hs : A.SignsIn C g)
    (k : ℕ) (ρ : ℕ → ZMod r) : Prop :=
  ∃ i < k, A.Signs (Spec.real C H g sk f A ρ i) ∧
    ∃ j < i, ptOf hs (Spec.real C H g sk f A ρ j) (ρ j) = ptOf hs (Spec.real C H g sk f A ρ i) (ρ i)

theorem lookup_mem {K V : Type} [BEq K] [LawfulBEq K] {l : List (K × V)} {x : K} {v : V} (h : l.lookup x = some v) : (x, v) ∈ l := by
  induction l with
  | nil => simp at h
  | cons e l ih =>
    obtain ⟨y, w⟩ := e
    rw [List.lookup_cons] at h
    split at h
    · rename_i hb
      rw [eq_of_beq hb, Option.some.inj h]
      exact List.mem_cons_self ..
    · exact List.mem_cons_of_mem _ (ih h)

theorem lookup_none {K V : Type} [BEq K] [LawfulBEq K] {l : List (K × V)} {x : K} (h : l.lookup x = none) : ∀ e ∈ l, e.1 ≠ x := by
  induction l with
  | nil => simp
  | cons e l ih =>
    obtain ⟨y, w⟩ := e
    rw [List.lookup_cons] at h
    split at h
    · cases h
    · rename_i hb
      intro e he
      rcases List.mem_cons.1 he with rfl | he
      · intro hx
        subst hx
        simp at hb
      · exact ih h e he

/-- If no signature uses an old hash value, the simulation with matching responses, challenges and table gives the same replies. -/
theorem sim_eq (C : Curve G) (H : HashEnv r) (g : G) (sk : ZMod r) (f f0 : D → ZMod r) (A : Spec.Forger r G D)
    (hs : A.SignsIn C g) (hH : ∀ x : D, hashToField (ε := SignatureError) H Schnorr.persona x.1 = .ok (f x)) (d : D)
    (k : ℕ) (ρ s c : ℕ → ZMod r) (hbad : ¬ Bad C H g sk f A hs k ρ)
    (h1 : ∀ i < k, A.Signs (Spec.real C H g sk f A ρ i) → s i = ρ i - sk * f (ptOf hs (Spec.real C H g sk f A ρ i) (ρ i)))
    (h2 : ∀ i < k, A.Signs (Spec.real C H g sk f A ρ i) → c i = f (ptOf hs (Spec.real C H g sk f A ρ i) (ρ i)))
    (h3 : ∀ y, (∀ i < k, A.Signs (Spec.real C H g sk f A ρ i) → ptOf hs (Spec.real C H g sk f A ρ i) (ρ i) ≠ y) → f0 y = f y)
    (i : ℕ) (hi : i ≤ k) :
    ∃ pr, Spec.simState C g (sk • g) A s c (Spec.answers (Spec.simQuery C g (sk • g) A d s c) f0 i) =
        (Spec.real C H g sk f A ρ i, pr) ∧
      (∀ e ∈ pr, ∃ j < i, A.Signs (Spec.real C H g sk f A ρ j) ∧
        e = ((ptOf hs (Spec.real C H g sk f A ρ j) (ρ j)).1, f (ptOf hs (Spec.real C H g sk f A ρ j) (ρ j)))) ∧
      ∀ j < i, A.Signs (Spec.real C H g sk f A ρ j) → ∃ e ∈ pr, e.1 = (ptOf hs (Spec.real C H g sk f A ρ j) (ρ j)).1 := by
  induction i with
  | zero => exact ⟨[], rfl, by simp, by simp⟩
  | succ i ih =>
    obtain ⟨pr, e, hp, hq⟩ := ih (by omega)
    have estep : Spec.simState C g (sk • g) A s c (Spec.answers (Spec.simQuery C g (sk • g) A d s c) f0 (i + 1)) =
        Spec.simStep C g (sk • g) A s c (Spec.real C H g sk f A ρ i, pr)
          (f0 (Spec.simQuery C g (sk • g) A d s c (Spec.answers (Spec.simQuery C g (sk • g) A d s c) f0 i))) := by
      rw [Spec.answers, Spec.simState, List.foldl_append, List.foldl_cons, List.foldl_nil]
      rw [show List.foldl (Spec.simStep C g (sk • g) A s c) ([], []) _ = _ from e]
    rw [estep]
    rcases hact : A.act (Spec.real C H g sk f A ρ i) with x | m
    · have hx : Spec.simQuery C g (sk • g) A d s c (Spec.answers (Spec.simQuery C g (sk • g) A d s c) f0 i) = x := by
        rw [Spec.simQuery, e]
        simp only [hact]
      refine ⟨pr, ?_, ?_, ?_⟩
      · rw [hx]
        simp only [Spec.simStep, hact]
        rw [Spec.real, realReply_hash H sk f hact]
        congr 4
        rcases hl : pr.lookup x.1 with _ | v
        · simp only [Option.getD_none]
          apply h3
          intro j hj hsj hpt
          rcases lt_trichotomy j i with h | h | h
          · obtain ⟨e', he', hk⟩ := hq j h hsj
            exact lookup_none hl e' he' (by rw [hk, hpt])
          · subst h
            obtain ⟨m, hm⟩ := hsj
            rw [hact] at hm
            cases hm
          · exact hbad ⟨j, hj, hsj, i, h, by rw [ptOf_inl hs hact, hpt]⟩
        · simp only [Option.getD_some]
          obtain ⟨j, -, -, hj⟩ := hp _ (lookup_mem hl)
          obtain ⟨ha, hb⟩ := Prod.mk.inj hj
          rw [hb, Subtype.ext ha]
      · intro e' he'
        obtain ⟨j, hj, h⟩ := hp e' he'
        exact ⟨j, by omega, h⟩
      · intro j hj hsj
        rcases Nat.lt_succ_iff_lt_or_eq.1 hj with h | h
        · exact hq j h hsj
        · subst h
          obtain ⟨m, hm⟩ := hsj
          rw [hact] at hm
          cases hm
    · have hsi : A.Signs (Spec.real C H g sk f A ρ i) := ⟨m, hact⟩
      have hv : s i • g + c i • sk • g = ρ i • g := by
        rw [h1 i (by omega) hsi, h2 i (by omega) hsi]
        module
      have hlen := real_length C H g sk f A ρ i
      have hst : Spec.simStep C g (sk • g) A s c (Spec.real C H g sk f A ρ i, pr)
          (f0 (Spec.simQuery C g (sk • g) A d s c (Spec.answers (Spec.simQuery C g (sk • g) A d s c) f0 i))) =
          (Spec.real C H g sk f A ρ i ++ [.inr (ρ i • g, s i)], (Schnorr.hashInput C g m (ρ i • g), c i) :: pr) := by
        simp only [Spec.simStep, hact, hlen, hv]
      refine ⟨(Schnorr.hashInput C g m (ρ i • g), c i) :: pr, ?_, ?_, ?_⟩
      · rw [hst, Spec.real, realReply_sign H sk f hs hH hact, h1 i (by omega) hsi]
      · intro e' he'
        rcases List.mem_cons.1 he' with rfl | he'
        · exact ⟨i, by omega, hsi, by rw [ptOf_inr hs hact, h2 i (by omega) hsi]⟩
        · obtain ⟨j, hj, h⟩ := hp e' he'
          exact ⟨j, by omega, h⟩
      · intro j hj hsj
        rcases Nat.lt_succ_iff_lt_or_eq.1 hj with h | h
        · obtain ⟨e', he', hk⟩ := hq j h hsj
          exact ⟨e', List.mem_cons_of_mem _ he', hk⟩
        · subst h
          exact ⟨_, List.mem_cons_self .., by rw [ptOf_inr hs hact]⟩

open Classical in
/-- For a fixed table, a signature hits an old hash value for few draws of the signer. -/
theorem bad_card (C : Curve G) (hl : C.codec.Lawful) {n : ℕ} (hfix : C.codec.Fixed n) (H : HashEnv r) (g : G) (hg : g ≠ 0)
    (sk : ZMod r) (f : D → ZMod r) (A : Spec.Forger r G D) (hs : A.SignsIn C g) (k : ℕ) :
    (univ.filter fun ρ : Fin k → ZMod r => Bad C H g sk f A hs k (Spec.withPrefix ρ fun _ => 0)).card * r ≤
      k ^ 2 * r ^ k := by
  let Q : Fin k × Fin k → (Fin k → ZMod r) → Prop := fun q ρ =>
    q.2 < q.1 ∧ A.Signs (Spec.real C H g sk f A (Spec.withPrefix ρ fun _ => 0) q.1) ∧
      ptOf hs (Spec.real C H g sk f A (Spec.withPrefix ρ fun _ => 0) q.2) (ρ q.2) =
        ptOf hs (Spec.real C H g sk f A (Spec.withPrefix ρ fun _ => 0) q.1) (ρ q.1)
  have hpre : ∀ (ρ : Fin k → ZMod r) (i : Fin k), Spec.withPrefix ρ (fun _ => 0) (i : ℕ) = ρ i := by
    intro ρ i
    simp [Spec.withPrefix, i.2]
  have hQ : ∀ q, (univ.filter (Q q)).card * r ≤ r ^ k := by
    rintro ⟨i, j⟩
    have := card_fibre i (Q (i, j)) r ?_
    · simpa [Fintype.card_fun, ZMod.card] using this
    intro c
    rw [ZMod.card]
    have h1 : (univ.filter fun x : ZMod r => Q (i, j) (Function.update c i x)).card ≤ 1 := by
      rw [card_le_one]
      intro x hx y hy
      simp only [mem_filter, mem_univ, true_and, Q] at hx hy
      obtain ⟨hji, ⟨m, hm⟩, hx⟩ := hx
      obtain ⟨-, -, hy⟩ := hy
      have hreal : ∀ l ≤ (i : ℕ), Spec.real C H g sk f A (Spec.withPrefix (Function.update c i y) fun _ => 0) l =
          Spec.real C H g sk f A (Spec.withPrefix (Function.update c i x) fun _ => 0) l := by
        intro l hl
        apply real_congr
        intro a ha
        have hak : a < k := by omega
        have hne : (⟨a, hak⟩ : Fin k) ≠ i := fun he => by
          have := congrArg Fin.val he
          simp only at this
          omega
        rw [hpre _ ⟨a, hak⟩, hpre _ ⟨a, hak⟩, Function.update_of_ne hne, Function.update_of_ne hne]
      have hne : j ≠ i := ne_of_lt hji
      rw [hreal _ le_rfl, hreal _ (le_of_lt hji), Function.update_of_ne hne, Function.update_self] at hy
      rw [Function.update_of_ne hne, Function.update_self] at hx
      have h := congrArg Subtype.val (hx.symm.trans hy)
      rw [ptOf_inr hs hm, ptOf_inr hs hm] at h
      obtain ⟨-, -, h⟩ := C50_schnorr C hl n hfix g g _ _ _ _ h
      have h0 : (x - y) • g = 0 := by rw [sub_smul, h, sub_self]
      rcases smul_eq_zero.1 h0 with h | h
      · exact sub_eq_zero.1 h
      · exact absurd h hg
    calc _ ≤ 1 * r := Nat.mul_le_mul_right _ h1
      _ = r := one_mul _
  have hsub : (univ.filter fun ρ : Fin k → ZMod r => Bad C H g sk f A hs k (Spec.withPrefix ρ fun _ => 0)) ⊆
      univ.biUnion fun q : Fin k × Fin k => univ.filter (Q q) := by
    intro ρ hρ
    simp only [mem_filter, mem_univ, true_and] at hρ
    obtain ⟨i, hi, hsi, j, hj, h⟩ := hρ
    simp only [mem_biUnion, mem_univ, true_and, mem_filter]
    refine ⟨(⟨i, hi⟩, ⟨j, by omega⟩), hj, hsi, ?_⟩
    rw [← hpre ρ ⟨i, hi⟩, ← hpre ρ ⟨j, by omega⟩]
    exact h
  calc _ ≤ (univ.biUnion fun q : Fin k × Fin k => univ.filter (Q q)).card * r := Nat.mul_le_mul_right _ (card_le_card hsub)
    _ ≤ (∑ q : Fin k × Fin k, (univ.filter (Q q)).card) * r := Nat.mul_le_mul_right _ card_biUnion_le
    _ = ∑ q : Fin k × Fin k, (univ.filter (Q q)).card * r := by rw [sum_mul]
    _ ≤ ∑ _q : Fin k × Fin k, r ^ k := sum_le_sum fun q _ => hQ q
    _ = k ^ 2 * r ^ k := by
      rw [sum_const, card_univ, Fintype.card_prod, Fintype.card_fin, smul_eq_mul, sq]

section Transfer

variable (C : Curve G) (H : HashEnv r) (g : G) (sk : ZMod r) (f : D → ZMod r) (A : Spec.Forger r G D) (hs : A.SignsIn C g)
  (k : ℕ) (ρ d : Fin k → ZMod r)

/-- The replies of the real game. -/
noncomputable abbrev rl (i : ℕ) : List (Spec.Reply r G) := Spec.real C H g sk f A (Spec.withPrefix ρ fun _ => 0) i

/-- The points of the real game. -/
noncomputable abbrev rp (i : Fin k) : D := ptOf hs (rl C H g sk f A k ρ i) (ρ i)

open Classical in
/-- The table, responses and challenges that make the simulation agree with the real game; `d` are the table values that the
simulation overwrites. -/
noncomputable def toSim : ((Fin k → ZMod r) × (Fin k → ZMod r)) × (D → ZMod r) :=
  ((fun i => if A.Signs (rl C H g sk f A k ρ i) then ρ i - sk * f (rp C H g sk f A hs k ρ i) else ρ i,
    fun i => if A.Signs (rl C H g sk f A k ρ i) then f (rp C H g sk f A hs k ρ i) else d i),
   fun y => if h : ∃ i : Fin k, A.Signs (rl C H g sk f A k ρ i) ∧ rp C H g sk f A hs k ρ i = y then d h.choose else f y)

variable {C H g sk f A hs k ρ d}

theorem withPrefix_fin (v : Fin k → ZMod r) (i : Fin k) : Spec.withPrefix v (fun _ => 0) (i : ℕ) = v i := by
  simp [Spec.withPrefix, i.2]

theorem toSim_at (hbad : ¬ Bad C H g sk f A hs k (Spec.withPrefix ρ fun _ => 0)) {i : Fin k}
    (hi : A.Signs (rl C H g sk f A k ρ i)) :
    (toSim C H g sk f A hs k ρ d).2 (rp C H g sk f A hs k ρ i) = d i := by
  have h : ∃ j : Fin k, A.Signs (rl C H g sk f A k ρ j) ∧ rp C H g sk f A hs k ρ j = rp C H g sk f A hs k ρ i :=
    ⟨i, hi, rfl⟩
  have h1 : (toSim C H g sk f A hs k ρ d).2 (rp C H g sk f A hs k ρ i) = d h.choose := dif_pos h
  rw [h1]
  congr 1
  obtain ⟨hc, he⟩ := h.choose_spec
  rcases lt_trichotomy h.choose i with hlt | heq | hlt
  · exfalso
    refine hbad ⟨i, i.2, hi, h.choose, hlt, ?_⟩
    rw [withPrefix_fin, withPrefix_fin]
    exact he
  · exact heq
  · exfalso
    refine hbad ⟨h.choose, Fin.is_lt _, hc, i, hlt, ?_⟩
    rw [withPrefix_fin, withPrefix_fin]
    exact he.symm

theorem toSim_off {y : D} (h : ∀ i : Fin k, A.Signs (rl C H g sk f A k ρ i) → rp C H g sk f A hs k ρ i ≠ y) :
    (toSim C H g sk f A hs k ρ d).2 y = f y :=
  dif_neg fun ⟨i, hi, he⟩ => h i hi he

theorem toSim_simulate (hH : ∀ x : D, hashToField (ε := SignatureError) H Schnorr.persona x.1 = .ok (f x)) (d0 : D)
    (hbad : ¬ Bad C H g sk f A hs k (Spec.withPrefix ρ fun _ => 0)) :
    Spec.simulate C g (sk • g) A d0 k (toSim C H g sk f A hs k ρ d).2
      (Spec.withPrefix (toSim C H g sk f A hs k ρ d).1.1 fun _ => 0)
      (Spec.withPrefix (toSim C H g sk f A hs k ρ d).1.2 fun _ => 0) = rl C H g sk f A k ρ k := by
  have h1 : ∀ i < k, A.Signs (rl C H g sk f A k ρ i) →
      Spec.withPrefix (toSim C H g sk f A hs k ρ d).1.1 (fun _ => 0) i = Spec.withPrefix ρ (fun _ => 0) i -
        sk * f (ptOf hs (rl C H g sk f A k ρ i) (Spec.withPrefix ρ (fun _ => 0) i)) := by
    intro i hi hsi
    rw [withPrefix_fin _ ⟨i, hi⟩, withPrefix_fin _ ⟨i, hi⟩]
    exact if_pos hsi
  have h2 : ∀ i < k, A.Signs (rl C H g sk f A k ρ i) →
      Spec.withPrefix (toSim C H g sk f A hs k ρ d).1.2 (fun _ => 0) i =
        f (ptOf hs (rl C H g sk f A k ρ i) (Spec.withPrefix ρ (fun _ => 0) i)) := by
    intro i hi hsi
    rw [withPrefix_fin _ ⟨i, hi⟩, withPrefix_fin _ ⟨i, hi⟩]
    exact if_pos hsi
  have h3 : ∀ y, (∀ i < k, A.Signs (rl C H g sk f A k ρ i) →
      ptOf hs (rl C H g sk f A k ρ i) (Spec.withPrefix ρ (fun _ => 0) i) ≠ y) →
      (toSim C H g sk f A hs k ρ d).2 y = f y := by
    intro y hy
    apply toSim_off
    intro i hi
    have := hy i i.2 hi
    rwa [withPrefix_fin] at this
  obtain ⟨pr, h, -⟩ := sim_eq C H g sk f _ A hs hH d0 k _ _ _ hbad h1 h2 h3 k le_rfl
  exact congrArg Prod.fst h

end Transfer

theorem toSim_inj {C : Curve G} {env : (D → ZMod r) → HashEnv r} {g : G} {sk : ZMod r} {A : Spec.Forger r G D}
    {hs : A.SignsIn C g} {k : ℕ}
    (henv : ∀ f (x : D), hashToField (ε := SignatureError) (env f) Schnorr.persona x.1 = .ok (f x)) (d0 : D)
    {f f' : D → ZMod r} {ρ d ρ' d' : Fin k → ZMod r}
    (hbad : ¬ Bad C (env f) g sk f A hs k (Spec.withPrefix ρ fun _ => 0))
    (hbad' : ¬ Bad C (env f') g sk f' A hs k (Spec.withPrefix ρ' fun _ => 0))
    (h : toSim C (env f) g sk f A hs k ρ d = toSim C (env f') g sk f' A hs k ρ' d') : f = f' ∧ ρ = ρ' ∧ d = d' := by
  have hk : rl C (env f) g sk f A k ρ k = rl C (env f') g sk f' A k ρ' k := by
    rw [← toSim_simulate (d := d) (henv f) d0 hbad, ← toSim_simulate (d := d') (henv f') d0 hbad', h]
  have hr : ∀ i : Fin k, rl C (env f) g sk f A k ρ i = rl C (env f') g sk f' A k ρ' i := by
    intro i
    have := congrArg (List.take i) hk
    rwa [rl, rl, real_take _ _ _ _ _ _ _ i.2.le, real_take _ _ _ _ _ _ _ i.2.le] at this
  have e1 : ∀ i, (toSim C (env f) g sk f A hs k ρ d).1.1 i = (toSim C (env f') g sk f' A hs k ρ' d').1.1 i := fun i => by rw [h]
  have e2 : ∀ i, (toSim C (env f) g sk f A hs k ρ d).1.2 i = (toSim C (env f') g sk f' A hs k ρ' d').1.2 i := fun i => by rw [h]
  have e3 : ∀ y, (toSim C (env f) g sk f A hs k ρ d).2 y = (toSim C (env f') g sk f' A hs k ρ' d').2 y := fun y => by rw [h]
  -- signing steps
  have hc : ∀ i : Fin k, A.Signs (rl C (env f) g sk f A k ρ i) →
      f (rp C (env f) g sk f A hs k ρ i) = f' (rp C (env f') g sk f' A hs k ρ' i) := by
    intro i hi
    have hi' := hi
    rw [hr i] at hi'
    have := e2 i
    rw [show (toSim C (env f) g sk f A hs k ρ d).1.2 i = _ from if_pos hi,
      show (toSim C (env f') g sk f' A hs k ρ' d').1.2 i = _ from if_pos hi'] at this
    exact this
  have hρ : ρ = ρ' := by
    funext i
    have h1 := e1 i
    by_cases hi : A.Signs (rl C (env f) g sk f A k ρ i)
    · have hi' := hi
      rw [hr i] at hi'
      rw [show (toSim C (env f) g sk f A hs k ρ d).1.1 i = _ from if_pos hi,
        show (toSim C (env f') g sk f' A hs k ρ' d').1.1 i = _ from if_pos hi', hc i hi] at h1
      exact sub_left_injective h1
    · have hi' := hi
      rw [hr i] at hi'
      rw [show (toSim C (env f) g sk f A hs k ρ d).1.1 i = _ from if_neg hi,
        show (toSim C (env f') g sk f' A hs k ρ' d').1.1 i = _ from if_neg hi'] at h1
      exact h1
  have hp : ∀ i : Fin k, rp C (env f) g sk f A hs k ρ i = rp C (env f') g sk f' A hs k ρ' i := by
    intro i
    rw [rp, rp, hr i, hρ]
  refine ⟨?_, hρ, ?_⟩
  · funext y
    by_cases hy : ∃ i : Fin k, A.Signs (rl C (env f) g sk f A k ρ i) ∧ rp C (env f) g sk f A hs k ρ i = y
    · obtain ⟨i, hi, rfl⟩ := hy
      rw [hc i hi, hp i]
    · have h3 := e3 y
      rw [toSim_off fun i hi he => hy ⟨i, hi, he⟩, toSim_off fun i hi he => hy ⟨i, by rw [hr i]; exact hi, by rw [hp i]; exact he⟩]
        at h3
      exact h3
  · funext i
    by_cases hi : A.Signs (rl C (env f) g sk f A k ρ i)
    · have hi' := hi
      rw [hr i] at hi'
      rw [← toSim_at (d := d) hbad hi, e3, hp i, toSim_at hbad' hi']
    · have hi' := hi
      rw [hr i] at hi'
      have h2 := e2 i
      rw [show (toSim C (env f) g sk f A hs k ρ d).1.2 i = _ from if_neg hi,
        show (toSim C (env f') g sk f' A hs k ρ' d').1.2 i = _ from if_neg hi'] at h2
      exact h2

open Classical in
/-- **C94** (simulation). A forger that sees valid signatures wins for hardly more tables and draws than a simulation that makes
the signatures up from the public key: with `R` the number of tables and draws of the signer for which the forger wins, `T` the
number of tables and draws of the simulation for which the output is a valid signature and `N` the number of tables,
`r R r^k ≤ r T + k² N r^2k` (the simulation draws two scalars per step, the signer one). -/
theorem C94 (C : Curve G) (hl : C.codec.Lawful) {n : ℕ} (hfix : C.codec.Fixed n) (g : G) (hg : g ≠ 0) (sk : ZMod r)
    (D : Finset (List UInt8)) (env : (D → ZMod r) → HashEnv r)
    (henv : ∀ f (x : D), hashToField (ε := SignatureError) (env f) Schnorr.persona x.1 = .ok (f x))
    (k : ℕ) (A : Spec.Forger r G D) (hs : A.SignsIn C g) (d : D)
    (hD : ∀ l, Schnorr.hashInput C g (A.out l).1 (A.out l).2.1 ∈ D) :
    let replies : (D → ZMod r) → (Fin k → ZMod r) → List (Spec.Reply r G) := fun f ρ =>
      Spec.real C (env f) g sk f A (Spec.withPrefix ρ fun _ => 0) k
    let R := univ.filter fun p : (D → ZMod r) × (Fin k → ZMod r) =>
      ¬ A.Asked (replies p.1 p.2) (A.out (replies p.1 p.2)).1 ∧
      Schnorr.verify C (env p.1) g (sk • g) (A.out (replies p.1 p.2)).1 (A.out (replies p.1 p.2)).2 = .ok ()
    let run : ((Fin k → ZMod r) × (Fin k → ZMod r)) → (D → ZMod r) → List UInt8 × Schnorr.Sig r G := fun q f =>
      A.out (Spec.simulate C g (sk • g) A d k f (Spec.withPrefix q.1 fun _ => 0) (Spec.withPrefix q.2 fun _ => 0))
    let T := univ.filter fun p : ((Fin k → ZMod r) × (Fin k → ZMod r)) × (D → ZMod r) =>
      Schnorr.verify C (env p.2) g (sk • g) (run p.1 p.2).1 (run p.1 p.2).2 = .ok ()
    r * (R.card * r ^ k) ≤ r * T.card + k ^ 2 * (Fintype.card (D → ZMod r) * r ^ k * r ^ k) := by
  intro replies R run T
  let bad : (D → ZMod r) × (Fin k → ZMod r) → Prop := fun p =>
    Bad C (env p.1) g sk p.1 A hs k (Spec.withPrefix p.2 fun _ => 0)
  let B := univ.filter bad
  let E := ((R.filter fun p => ¬ bad p) ×ˢ (univ : Finset (Fin k → ZMod r)))
  have hB : B.card * r ≤ k ^ 2 * (Fintype.card (D → ZMod r) * r ^ k) := by
    have : B.card = ∑ f : D → ZMod r, (univ.filter fun ρ => bad (f, ρ)).card := by
      simp only [B, card_filter, Fintype.sum_prod_type]
    rw [this, sum_mul]
    calc _ ≤ ∑ _f : D → ZMod r, k ^ 2 * r ^ k := sum_le_sum fun f _ => bad_card C hl hfix (env f) g hg sk f A hs k
      _ = _ := by
        rw [sum_const, card_univ, smul_eq_mul]
        ring
  have hR : R.card ≤ (R.filter fun p => ¬ bad p).card + B.card := by
    rw [← card_filter_add_card_filter_not (s := R) bad, add_comm]
    refine Nat.add_le_add_left (card_le_card ?_) _
    intro p hp
    simp only [B, mem_filter, mem_univ, true_and] at hp ⊢
    exact hp.2
  have hE : E.card = (R.filter fun p => ¬ bad p).card * r ^ k := by
    simp [E, ZMod.card]
  have hET : E.card ≤ T.card := by
    refine card_le_card_of_injOn (fun p => toSim C (env p.1.1) g sk p.1.1 A hs k p.1.2 p.2) ?_ ?_
    · rintro ⟨⟨f, ρ⟩, e⟩ hp
      simp only [E, R, coe_product, Set.mem_prod, mem_coe, mem_filter, mem_univ, true_and, and_true] at hp
      obtain ⟨⟨hask, hv⟩, hb⟩ := hp
      simp only [T, mem_coe, mem_filter, mem_univ, true_and]
      have hrun : run (toSim C (env f) g sk f A hs k ρ e).1 (toSim C (env f) g sk f A hs k ρ e).2 = A.out (replies f ρ) :=
        congrArg A.out (toSim_simulate (henv f) d hb)
      rw [hrun]
      set f0 := (toSim C (env f) g sk f A hs k ρ e).2 with hf0
      obtain ⟨c, hc, heq⟩ := schnorr_verify_ok hv
      have hc' : Schnorr.challenge C (env f0) g (A.out (replies f ρ)).1 (A.out (replies f ρ)).2.1 = .ok c := by
        have h1 := henv f ⟨_, hD (replies f ρ)⟩
        have h2 := henv f0 ⟨_, hD (replies f ρ)⟩
        unfold Schnorr.challenge at hc ⊢
        rw [h1] at hc
        rw [h2, ← hc, hf0, toSim_off]
        intro i ⟨m, hm⟩ he
        apply hask
        refine ⟨i, by rw [real_length]; exact i.2, ?_⟩
        rw [real_take _ _ _ _ _ _ _ i.2.le]
        have h3 := congrArg Subtype.val he
        rw [rp, ptOf_inr hs hm] at h3
        obtain ⟨h3, -, -⟩ := C50_schnorr C hl n hfix g g _ _ _ _ h3
        rw [← h3]
        exact hm
      rw [schnorr_verify_eq C (env f0) g _ _ _ hc', if_neg (not_not.2 heq)]
    · rintro ⟨⟨f, ρ⟩, e⟩ hp ⟨⟨f', ρ'⟩, e'⟩ hp' h
      simp only [E, coe_product, Set.mem_prod, mem_coe, mem_filter, mem_univ, and_true] at hp hp'
      obtain ⟨h1, h2, h3⟩ := toSim_inj henv d hp.2 hp'.2 h
      exact Prod.ext (Prod.ext h1 h2) h3
  calc r * (R.card * r ^ k) ≤ r * (((R.filter fun p => ¬ bad p).card + B.card) * r ^ k) :=
        Nat.mul_le_mul_left _ (Nat.mul_le_mul_right _ hR)
    _ = r * E.card + (B.card * r) * r ^ k := by rw [hE]; ring
    _ ≤ r * T.card + (k ^ 2 * (Fintype.card (D → ZMod r) * r ^ k)) * r ^ k :=
        Nat.add_le_add (Nat.mul_le_mul_left _ hET) (Nat.mul_le_mul_right _ hB)
    _ = _ := by ring

open Classical in
/-- **C94** (extraction). Running the simulation twice, the second time with a new hash value at the point the verifier looks up,
gives the secret key: with `T` as before and `W` the number of draws, tables and new values for which it does,
`r T² ≤ (k + 1) N r^2k (W + T)`. No step of the simulation uses the secret key. -/
theorem C94_extract (C : Curve G) (hl : C.codec.Lawful) {n : ℕ} (hfix : C.codec.Fixed n) (g pk : G)
    (D : Finset (List UInt8)) (env : (D → ZMod r) → HashEnv r)
    (henv : ∀ f (x : D), hashToField (ε := SignatureError) (env f) Schnorr.persona x.1 = .ok (f x))
    (k : ℕ) (A : Spec.Forger r G D) (d : D)
    (hD : ∀ l, Schnorr.hashInput C g (A.out l).1 (A.out l).2.1 ∈ D) :
    let run : ((Fin k → ZMod r) × (Fin k → ZMod r)) → (D → ZMod r) → List UInt8 × Schnorr.Sig r G := fun q f =>
      A.out (Spec.simulate C g pk A d k f (Spec.withPrefix q.1 fun _ => 0) (Spec.withPrefix q.2 fun _ => 0))
    let pt : ((Fin k → ZMod r) × (Fin k → ZMod r)) → (D → ZMod r) → D := fun q f =>
      ⟨Schnorr.hashInput C g (run q f).1 (run q f).2.1, hD _⟩
    let T := univ.filter fun p : ((Fin k → ZMod r) × (Fin k → ZMod r)) × (D → ZMod r) =>
      Schnorr.verify C (env p.2) g pk (run p.1 p.2).1 (run p.1 p.2).2 = .ok ()
    let W := univ.filter fun p : ((Fin k → ZMod r) × (Fin k → ZMod r)) × ((D → ZMod r) × ZMod r) =>
      pk = (((run p.1 p.2.1).2.2 - (run p.1 (Function.update p.2.1 (pt p.1 p.2.1) p.2.2)).2.2) *
        (p.2.2 - p.2.1 (pt p.1 p.2.1))⁻¹) • g
    r * T.card ^ 2 ≤ (k + 1) * (Fintype.card (D → ZMod r) * r ^ k * r ^ k) * (W.card + T.card) := by
  intro run pt T W
  let t : (Fin k → ZMod r) × (Fin k → ZMod r) → ℕ := fun q => (univ.filter fun f : D → ZMod r =>
    Schnorr.verify C (env f) g pk (run q f).1 (run q f).2 = .ok ()).card
  let w : (Fin k → ZMod r) × (Fin k → ZMod r) → ℕ := fun q => (univ.filter fun p : (D → ZMod r) × ZMod r =>
    pk = (((run q p.1).2.2 - (run q (Function.update p.1 (pt q p.1) p.2)).2.2) * (p.2 - p.1 (pt q p.1))⁻¹) • g).card
  have hT : T.card = ∑ q, t q := by
    simp only [T, t, card_filter, Fintype.sum_prod_type]
  have hW : W.card = ∑ q, w q := by
    simp only [W, w, card_filter, Fintype.sum_prod_type]
  have hq : ∀ q, r * t q ^ 2 ≤ (k + 1) * Fintype.card (D → ZMod r) * (w q + t q) := fun q =>
    C93_schnorr C hl hfix g pk D env henv k
      (Spec.simQuery C g pk A d (Spec.withPrefix q.1 fun _ => 0) (Spec.withPrefix q.2 fun _ => 0))
      (fun l => A.out (Spec.simState C g pk A (Spec.withPrefix q.1 fun _ => 0) (Spec.withPrefix q.2 fun _ => 0) l).1)
      (fun l => hD _)
  have hM : Fintype.card ((Fin k → ZMod r) × (Fin k → ZMod r)) = r ^ k * r ^ k := by
    simp [Fintype.card_prod, ZMod.card]
  have hcs := sq_sum_le_card_mul_sum_sq (s := (univ : Finset ((Fin k → ZMod r) × (Fin k → ZMod r)))) (f := t)
  rw [card_univ, hM] at hcs
  rw [hT, hW]
  calc r * (∑ q, t q) ^ 2 ≤ r * (r ^ k * r ^ k * ∑ q, t q ^ 2) := Nat.mul_le_mul_left _ hcs
    _ = r ^ k * r ^ k * ∑ q, r * t q ^ 2 := by rw [← mul_sum]; ring
    _ ≤ r ^ k * r ^ k * ∑ q, (k + 1) * Fintype.card (D → ZMod r) * (w q + t q) :=
        Nat.mul_le_mul_left _ (sum_le_sum fun q _ => hq q)
    _ = _ := by rw [← mul_sum, sum_add_distrib]; ring

/-- Non-vacuity of C94: a forger with two steps that asks for a signature on `[1]`, looks up a hash and, knowing the secret key 5,
outputs a signature on `[2]`. It wins for all tables and draws, so that `R` is the set of all of them. -/
example : ∃ (D : Finset (List UInt8)) (A : Spec.Forger 13 (ZMod 13) D),
    A.SignsIn (Toy.curve 13) 1 ∧
    (∀ l, Schnorr.hashInput (Toy.curve 13) 1 (A.out l).1 (A.out l).2.1 ∈ D) ∧
    (∀ f (x : D), hashToField (ε := SignatureError) (Toy.tableHash D f) Schnorr.persona x.1 = .ok (f x)) ∧
    ∀ (f : D → ZMod 13) (ρ : ℕ → ZMod 13),
      let l := Spec.real (Toy.curve 13) (Toy.tableHash D f) 1 5 f A ρ 2
      A.Asked l [1] ∧ ¬ A.Asked l (A.out l).1 ∧
      Schnorr.verify (Toy.curve 13) (Toy.tableHash D f) 1 ((5 : ZMod 13) • (1 : ZMod 13)) (A.out l).1 (A.out l).2 = .ok () := by
  let x := Schnorr.hashInput (Toy.curve 13) (1 : ZMod 13) [2] 3
  let D : Finset (List UInt8) := insert x (univ.image fun v : ZMod 13 => Schnorr.hashInput (Toy.curve 13) 1 [1] (v • 1))
  have hx : x ∈ D := mem_insert_self _ _
  let val : Option (Spec.Reply 13 (ZMod 13)) → ZMod 13 := fun o => (o.bind Sum.getLeft?).getD 0
  obtain ⟨A, hact, hAo⟩ : ∃ A : Spec.Forger 13 (ZMod 13) D,
      (∀ l, A.act l = if l.length = 0 then .inr [1] else .inl ⟨x, hx⟩) ∧
      ∀ l, A.out l = ([2], ((3 : ZMod 13), 3 - 5 * val l[1]?)) :=
    ⟨⟨_, _⟩, fun _ => rfl, fun _ => rfl⟩
  have ht : ∀ f (y : D), hashToField (ε := SignatureError) (Toy.tableHash D f) Schnorr.persona y.1 = .ok (f y) :=
    fun f y => Toy.tableHash_eq (by decide) D f y
  refine ⟨D, A, ?_, fun l => by rw [hAo]; exact hx, ht, ?_⟩
  · intro l m h v
    rw [hact] at h
    have : m = [1] := by
      by_cases h0 : l.length = 0
      · exact (Sum.inr.inj ((if_pos h0).symm.trans h)).symm
      · cases (if_neg h0).symm.trans h
    subst this
    exact mem_insert_of_mem (mem_image_of_mem _ (mem_univ v))
  · intro f ρ l
    have hlen : l.length = 2 := real_length ..
    have hl : l = Spec.real (Toy.curve 13) (Toy.tableHash D f) 1 5 f A ρ 1 ++ [.inl (f ⟨x, hx⟩)] := by
      have h1 : A.act (Spec.real (Toy.curve 13) (Toy.tableHash D f) 1 5 f A ρ 1) = .inl ⟨x, hx⟩ :=
        (hact _).trans (if_neg (by rw [real_length]; decide))
      show Spec.real _ _ _ _ _ _ _ 2 = _
      rw [Spec.real, realReply_hash _ _ _ h1]
    have hout : A.out l = ([2], (3, 3 - 5 * f ⟨x, hx⟩)) := by
      have h1 : l[1]? = some (.inl (f ⟨x, hx⟩)) := by
        rw [hl, List.getElem?_append_right (by rw [real_length]), real_length]
        rfl
      rw [hAo, h1]
      rfl
    refine ⟨⟨0, by omega, (hact _).trans (if_pos (by simp))⟩, ?_, ?_⟩
    · rintro ⟨j, hj, h⟩
      rw [hout] at h
      rw [hact] at h
      split at h
      · have h : ([1] : List UInt8) = [2] := Sum.inr.inj h
        exact absurd h (by decide)
      · cases h
    · have hc : Schnorr.challenge (Toy.curve 13) (Toy.tableHash D f) 1 [2] (3 : ZMod 13) = .ok (f ⟨x, hx⟩) := ht f ⟨x, hx⟩
      rw [hout, schnorr_verify_eq (Toy.curve 13) (Toy.tableHash D f) 1 _ [2] ((3 : ZMod 13), 3 - 5 * f ⟨x, hx⟩) hc, if_neg]
      rw [not_not]
      simp only [smul_eq_mul]
      ring

end Verif
