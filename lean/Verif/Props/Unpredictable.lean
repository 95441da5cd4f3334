import Verif.Props.Secrecy
import Verif.Props.Session

/-!
# Predicting the value of a transcript with one honest contribution solves a Diffie–Hellman problem: C127

C95 is about one share, C120 about an adversary that knows the number `x` in the value `x g1` of the transcript. Here both together, for the
functions with the statement in the hash of the discrete-log proof (C120, C121): an adversary sees the share of one honest dealer and what
`t` corrupted parties decrypt of it, deals all other contributions itself, and predicts the value of the transcript as a point.
-/

open Finset Polynomial

namespace Verif

set_option linter.unusedSectionVars false

variable {r : ℕ} [Fact r.Prime] {G1 G2 K : Type}
  [AddCommGroup G1] [DecidableEq G1] [AddCommGroup G2] [DecidableEq G2] [CommMonoid K] [DecidableEq K]
  [Module (ZMod r) G1] [Module (ZMod r) G2]

/-! ### Definitions -/

/-- What is hashed for the challenge of the proof of contributor `i` about `gs`, with the commitment `a`: `tag i gs` before what the code hashes. -/
def Spec.tagged (S : Suite r G1 G2 K) (tag : ℕ → G2 → List UInt8) (g2 : G2) (i : ℕ) (gs a : G2) : List UInt8 :=
  tag i gs ++ (S.c2.codec.enc g2 ++ S.c2.codec.enc a)

/-- `Spec.RealRun` with the statement in the hash. -/
def Spec.RealBound {D : Finset (List UInt8)} (S : Suite r G1 G2 K) (env : (D → ZMod r) → HashEnv r) (tag : ℕ → G2 → List UInt8) (m : Mode)
    (cfg : Config G1 G2) (node : (ℕ → G1) → Node r G1 G2) (id : ℕ) (B : Finset ℕ) (P : ℕ → G1)
    (Q : PVSSShare r G1 G2 → (ℕ → G1) → (D → ZMod r) → (B → ZMod r) → ZMod r → Prop)
    (x : Spec.RealDraws r cfg.degree cfg.numParticipants D) : Prop :=
  ∃ sh rng', (node (Spec.keys B P cfg.srs.g1 x.2.1)).share
      { S with hash := Spec.tagHash (env x.2.2.2) (tag id (x.1 0 • cfg.srs.g2)) } m (Spec.withPrefix x.1 fun _ => x.2.2.1) = .ok (sh, rng') ∧
    Q sh (Spec.keys B P cfg.srs.g1 x.2.1) x.2.2.2 (fun i => Spec.evalAt x.1 (Spec.point r i)) (x.1 0)

/-- `Spec.SimRun` with the statement in the hash. -/
def Spec.SimBound {D : Finset (List UInt8)} (S : Suite r G1 G2 K) (tag : ℕ → G2 → List UInt8) (cfg : Config G1 G2)
    (skEd : SecretKey) (id : ℕ) (B : Finset ℕ) (P : ℕ → G1) (u : G1)
    (Q : PVSSShare r G1 G2 → (ℕ → G1) → (D → ZMod r) → (B → ZMod r) → ZMod r → Prop)
    (y : Spec.SimDraws r cfg.numParticipants B D) : Prop :=
  let (s, v, x, z, c, f) := y
  ∃ sh, Spec.simShare S skEd id cfg.numParticipants B P cfg.srs.g2 (s • cfg.srs.g2) u (s • u) v x z c = .ok sh ∧
    Q sh (Spec.keys B P u x)
      (Spec.programmed f (Spec.tagged S tag cfg.srs.g2 id (s • cfg.srs.g2) (z • cfg.srs.g2 + c • s • cfg.srs.g2)) c) v s

/-- An adversary: it sees the honest dealer's share, the public keys and the values of the corrupted parties, looks up the hash, and gives a
point and the contributions of a transcript. -/
structure Spec.Predictor (r : ℕ) (G1 G2 : Type) (B : Finset ℕ) (D : Finset (List UInt8)) where
  query : PVSSShare r G1 G2 → (ℕ → G1) → (B → ZMod r) → List (ZMod r) → D
  out : PVSSShare r G1 G2 → (ℕ → G1) → (B → ZMod r) → List (ZMod r) → G1 × BMap (SignedProof r G2 × UInt64)

section Game

variable {B : Finset ℕ} {D : Finset (List UInt8)} (S : Suite r G1 G2 K) (env : (D → ZMod r) → HashEnv r) (tag : ℕ → G2 → List UInt8)
  (cfg : Config G1 G2) (hD : ∀ i gs a, Spec.tagged S tag cfg.srs.g2 i gs a ∈ D) (A : Spec.Predictor r G1 G2 B D) (k : ℕ)
  (sh : PVSSShare r G1 G2) (pk : ℕ → G1) (v : B → ZMod r)

/-- Its output with the table `f`, after `k` look-ups. -/
def Spec.Predictor.run (f : D → ZMod r) : G1 × BMap (SignedProof r G2 × UInt64) :=
  A.out sh pk v (Spec.answers (A.query sh pk v) f k)

/-- The point of the table at which the challenge of contributor `i` stands. -/
def Spec.Predictor.crit (f : D → ZMod r) (i : ℕ) : D :=
  match (A.run k sh pk v f).2.get i with
  | some (x, _) => ⟨_, hD i x.decompProof.gs x.decompProof.proof.1⟩
  | none => ⟨_, hD i 0 0⟩

/-- Its contributions when it is run again, on the same share, with another answer `c` at the challenge of contributor `i`. -/
def Spec.Predictor.rerun (f : D → ZMod r) (i : ℕ) (c : ZMod r) : BMap (SignedProof r G2 × UInt64) :=
  (A.run k sh pk v (Function.update f (A.crit S tag cfg hD k sh pk v f i) c)).2

/-- The logarithm of contribution `i` computed from the two runs. -/
noncomputable def Spec.Predictor.log (f : D → ZMod r) (i : ℕ) (c : ZMod r) : ZMod r :=
  Spec.logFrom (A.run k sh pk v f).2 (A.rerun S tag cfg hD k sh pk v f i c) i

/-- The solver's output, from what the adversary sees and the answers `c i` in the second runs. -/
noncomputable def Spec.Predictor.solution (f : D → ZMod r) (c : ℕ → ZMod r) : G1 :=
  let H := sh.signedProof.decompProof.gs
  let o := A.run k sh pk v f
  (Spec.weightAt H o.2 : ZMod r)⁻¹ •
    (o.1 - Spec.otherLogs H (fun i => A.log S tag cfg hD k sh pk v f i (c i)) o.2 • cfg.srs.g1)

/-- The adversary wins: the contributions with another `gs` than the honest dealer's verify, that one occurs with non-zero weight, and the
point is the value of the transcript. -/
def Spec.Predictor.Wins (f : D → ZMod r) : Prop :=
  let H := sh.signedProof.decompProof.gs
  let o := A.run k sh pk v f
  (∀ i x w, o.2.get i = some (x, w) → x.decompProof.gs ≠ H →
    DLK.verify S.c2 (Spec.tagHash (env f) (tag i x.decompProof.gs)) cfg.srs.g2 x.decompProof.gs x.decompProof.proof = .ok ()) ∧
  (∃ i x w, o.2.get i = some (x, w) ∧ x.decompProof.gs = H ∧ w ≠ 0) ∧
  ∃ x : ZMod r, Spec.weightedGs o.2 = x • cfg.srs.g2 ∧ o.1 = x • cfg.srs.g1

/-- The answer `c` gives the logarithm of contribution `i`; this can be checked without knowing any secret. -/
def Spec.Predictor.Good (f : D → ZMod r) (i : ℕ) (c : ZMod r) : Prop :=
  ∀ x w, (A.run k sh pk v f).2.get i = some (x, w) → x.decompProof.gs ≠ sh.signedProof.decompProof.gs →
    x.decompProof.gs = A.log S tag cfg hD k sh pk v f i c • cfg.srs.g2

open Classical in
/-- For every contribution with another `gs` more than `d` of the `r` answers are good, and with any good answers the solver outputs
`s g1`. -/
def Spec.Predictor.Solved (d : ℕ) (f : D → ZMod r) (s : ZMod r) : Prop :=
  (∀ i x w, (A.run k sh pk v f).2.get i = some (x, w) → x.decompProof.gs ≠ sh.signedProof.decompProof.gs →
    d < (univ.filter (A.Good S tag cfg hD k sh pk v f i)).card) ∧
  ∀ c, (∀ i, A.Good S tag cfg hD k sh pk v f i (c i)) → A.solution S tag cfg hD k sh pk v f c = s • cfg.srs.g1

end Game

/-! ### The simulation -/

section Count

variable {D : Finset (List UInt8)} (S0 : Suite r G1 G2 K) (env : (D → ZMod r) → HashEnv r)
  (henv : ∀ f (x : D), hashToField (ε := NIZKError) (env f) (ascii "DLKNIZK") x.1 = .ok (f x)) (tag : ℕ → G2 → List UInt8)
  (m : Mode) (cfg : Config G1 G2)
  (hD : ∀ i gs a, Spec.tagged S0 tag cfg.srs.g2 i gs a ∈ D)
  (ht : cfg.degree + 1 < 2 ^ 58) (hn : cfg.numParticipants < r)
  (node : (ℕ → G1) → Node r G1 G2) (skEd : SecretKey) (id : ℕ) (hnode : ∀ pk, Spec.DealerFor cfg skEd id pk (node pk))
  (B : Finset ℕ) (hB : ∀ i ∈ B, i < cfg.numParticipants) (hBt : B.card = cfg.degree) (P : ℕ → G1)
  (a : ZMod r) (ha : a ≠ 0)
include henv hD ht hn hnode hB hBt ha

/-- A share dealt with the statement in the hash is the simulated one. -/
theorem bound_eq_sim {c : Fin (cfg.degree + 1) → ZMod r} {sk : Fin cfg.numParticipants → ZMod r} {k : ZMod r} {f : D → ZMod r}
    {sh : PVSSShare r G1 G2} {rng' : Rng r}
    (h : (node (Spec.keys B P cfg.srs.g1 sk)).share { S0 with hash := Spec.tagHash (env f) (tag id (c 0 • cfg.srs.g2)) } m
      (Spec.withPrefix c fun _ => k) = .ok (sh, rng')) :
    Spec.simShare S0 skEd id cfg.numParticipants B P cfg.srs.g2 (c 0 • cfg.srs.g2) (a • cfg.srs.g1) (c 0 • a • cfg.srs.g1)
      (fun i => Spec.evalAt c (Spec.point r i)) (fun j => sk j * a⁻¹)
      (k - c 0 * f ⟨_, hD id (c 0 • cfg.srs.g2) (k • cfg.srs.g2)⟩) (f ⟨_, hD id (c 0 • cfg.srs.g2) (k • cfg.srs.g2)⟩) = .ok sh := by
  have hnd := hnode (Spec.keys B P cfg.srs.g1 sk)
  have := share_eq_sim { S0 with hash := Spec.tagHash (env f) (tag id (c 0 • cfg.srs.g2)) } m (node (Spec.keys B P cfg.srs.g1 sk))
    (t := cfg.degree) (n := cfg.numParticipants) cfg.srs.g1 (by rw [hnd.config]; exact ⟨rfl, rfl⟩) ht hn hB hBt P a ha sk hnd.key c k
    (f ⟨_, hD id (c 0 • cfg.srs.g2) (k • cfg.srs.g2)⟩) sh rng'
    (by rw [hnd.config]; exact henv f ⟨_, hD id (c 0 • cfg.srs.g2) (k • cfg.srs.g2)⟩) h
  rw [hnd.config, hnd.skEd, hnd.id] at this
  exact this

omit henv hD hn hB hBt ha in
/-- **C127** (dealing). When the hash terminates and the key pair can be made, the real runs with a dealt share are exactly those with a
non-zero polynomial. -/
theorem C127_deal (hH : ∀ f, HashTotal (env f)) (h1 : 1 ≤ cfg.numParticipants) (hid : id < cfg.numParticipants)
    (hed : S0.ed.keypairOk skEd.bytes = true) (x : Spec.RealDraws r cfg.degree cfg.numParticipants D) :
    Spec.RealBound S0 env tag m cfg node id B P (fun _ _ _ _ _ => True) x ↔ x.1 ≠ 0 := by
  obtain ⟨c, sk, k, f⟩ := x
  have hnd := hnode (Spec.keys B P cfg.srs.g1 sk)
  have h := (C73 { S0 with hash := Spec.tagHash (env f) (tag id (c 0 • cfg.srs.g2)) } (fun p _ => hH f p _) m
    (node (Spec.keys B P cfg.srs.g1 sk)) (Spec.withPrefix c fun _ => k) (by rw [hnd.config]; exact ht)).1
  constructor
  · rintro ⟨sh, rng', e, -⟩ hc
    obtain ⟨-, -, -, ⟨j, hj, hj0⟩, -⟩ := h.1 ⟨_, e⟩
    rw [hnd.config] at hj
    have hc' : c = 0 := hc
    rw [Spec.withPrefix, dif_pos (Nat.lt_succ_of_le hj), hc'] at hj0
    exact hj0 rfl
  · intro hc
    obtain ⟨⟨sh, rng'⟩, e⟩ := h.2 ⟨by rw [hnd.config]; exact h1, by rw [hnd.config]; exact hnd.all,
      by rw [hnd.config, hnd.id]; exact hid, by
        rw [hnd.config]
        obtain ⟨j, hj⟩ := Function.ne_iff.1 hc
        exact ⟨j, by omega, by rw [Spec.withPrefix, dif_pos j.2]; exact hj⟩, by rw [hnd.skEd]; exact hed⟩
    exact ⟨sh, rng', e, trivial⟩

open Classical in
/-- **C127** (simulation). C95 for the functions with the statement in the hash. -/
theorem C127_simulation (Q : PVSSShare r G1 G2 → (ℕ → G1) → (D → ZMod r) → (B → ZMod r) → ZMod r → Prop) :
    (univ.filter (Spec.RealBound S0 env tag m cfg node id B P Q)).card * r ≤
      (univ.filter (Spec.SimBound S0 tag cfg skEd id B P (a • cfg.srs.g1) Q)).card := by
  let pt : ZMod r → ZMod r → D := fun s k => ⟨_, hD id (s • cfg.srs.g2) (k • cfg.srs.g2)⟩
  have hprod : ((univ.filter (Spec.RealBound S0 env tag m cfg node id B P Q)) ×ˢ (univ : Finset (ZMod r))).card =
      (univ.filter (Spec.RealBound S0 env tag m cfg node id B P Q)).card * r := by
    rw [card_product, card_univ, ZMod.card]
  rw [← hprod]
  refine card_le_card_of_injOn (fun p : Spec.RealDraws r cfg.degree cfg.numParticipants D × ZMod r =>
    (p.1.1 0, fun i => Spec.evalAt p.1.1 (Spec.point r i), fun j => p.1.2.1 j * a⁻¹,
      p.1.2.2.1 - p.1.1 0 * p.1.2.2.2 (pt (p.1.1 0) p.1.2.2.1), p.1.2.2.2 (pt (p.1.1 0) p.1.2.2.1),
      Function.update p.1.2.2.2 (pt (p.1.1 0) p.1.2.2.1) p.2)) ?_ ?_
  · rintro ⟨⟨c, sk, k, f⟩, d⟩ hp
    simp only [coe_product, Set.mem_prod, mem_coe, mem_filter, mem_univ, true_and, and_true] at hp ⊢
    obtain ⟨sh, rng', h, hQ⟩ := hp
    simp only at h hQ
    have hkeys : Spec.keys B P (a • cfg.srs.g1) (fun j => sk j * a⁻¹) = Spec.keys B P cfg.srs.g1 sk := by
      funext j
      unfold Spec.keys
      split
      · rfl
      · split
        · rw [smul_smul, mul_assoc, inv_mul_cancel₀ ha, mul_one]
        · rfl
    have hx : (k - c 0 * f (pt (c 0) k)) • cfg.srs.g2 + f (pt (c 0) k) • c 0 • cfg.srs.g2 = k • cfg.srs.g2 := by module
    refine ⟨sh, bound_eq_sim S0 env henv tag m cfg hD ht hn node skEd id hnode B hB hBt P a ha h, ?_⟩
    rw [hkeys]
    have hf : Spec.programmed (Function.update f (pt (c 0) k) d)
        (Spec.tagged S0 tag cfg.srs.g2 id (c 0 • cfg.srs.g2)
          ((k - c 0 * f (pt (c 0) k)) • cfg.srs.g2 + f (pt (c 0) k) • c 0 • cfg.srs.g2)) (f (pt (c 0) k)) = f := by
      rw [hx, Spec.programmed, dif_pos (hD ..)]
      show Function.update _ (pt (c 0) k) _ = _
      rw [Function.update_idem, Function.update_eq_self]
    simp only [hf]
    exact hQ
  · rintro ⟨⟨c, sk, k, f⟩, d⟩ - ⟨⟨c', sk', k', f'⟩, d'⟩ - h
    simp only [Prod.mk.injEq] at h
    obtain ⟨h0, hv, hsk, hz, hc, hf⟩ := h
    have e1 : c = c' := coeffs_known hn hB hBt (by rw [evalAt_zero, evalAt_zero, h0])
      fun i hi => congrFun hv ⟨i, hi⟩
    have e2 : sk = sk' := funext fun j => mul_right_cancel₀ (inv_ne_zero ha) (congrFun hsk j)
    have e3 : k = k' := by
      rw [hc, h0] at hz
      exact sub_left_injective hz
    subst e1 e2 e3
    have e4 : d = d' := by
      have := congrFun hf (pt (c 0) k)
      simpa using this
    have e5 : f = f' := by
      funext y
      by_cases hy : y = pt (c 0) k
      · rw [hy]; exact hc
      · have := congrFun hf y
        simpa [Function.update_of_ne hy] using this
    rw [e4, e5]

end Count

/-! ### The extraction -/

theorem answers_cons {A X : Type} (query : List A → X) (f : X → A) (k : ℕ) :
    Spec.answers query f (k + 1) = f (query []) :: Spec.answers (fun l => query (f (query []) :: l)) f k := by
  induction k with
  | zero => rfl
  | succ k ih =>
    rw [Spec.answers, ih]
    rfl

section Extract

variable {B : Finset ℕ} {D : Finset (List UInt8)} (S : Suite r G1 G2 K) (env : (D → ZMod r) → HashEnv r)
  (henv : ∀ f (x : D), hashToField (ε := NIZKError) (env f) (ascii "DLKNIZK") x.1 = .ok (f x)) (tag : ℕ → G2 → List UInt8)
  (cfg : Config G1 G2) (hD : ∀ i gs a, Spec.tagged S tag cfg.srs.g2 i gs a ∈ D)
  (hinj : ∀ i gs a i' gs' a', Spec.tagged S tag cfg.srs.g2 i gs a = Spec.tagged S tag cfg.srs.g2 i' gs' a' → gs = gs' ∧ a = a')
  (A : Spec.Predictor r G1 G2 B D) (k : ℕ) (pk : ℕ → G1) (v : B → ZMod r) (n : ℕ)
  (hids : ∀ sh l i x, (A.out sh pk v l).2.get i = some x → i < n) (d : ℕ)

omit [Fact r.Prime] in
theorem predictor_crit {sh : PVSSShare r G1 G2} {f : D → ZMod r} {i : ℕ} {x : SignedProof r G2} {w : UInt64}
    (h : (A.run k sh pk v f).2.get i = some (x, w)) :
    (A.crit S tag cfg hD k sh pk v f i).1 = Spec.tagged S tag cfg.srs.g2 i x.decompProof.gs x.decompProof.proof.1 := by
  unfold Spec.Predictor.crit
  rw [h]

include henv hinj in
open Classical in
/-- One contributor: the honest dealer's share depends on the answer `f p0` only. -/
theorem extract_behind (share : ZMod r → Option (PVSSShare r G1 G2)) (H gr : G2) (i0 i : ℕ) :
    r * (univ.filter fun f : D → ZMod r => ∃ sh x w, share (f ⟨_, hD i0 H gr⟩) = some sh ∧
      (A.run k sh pk v f).2.get i = some (x, w) ∧ x.decompProof.gs ≠ H ∧
      DLK.verify S.c2 (Spec.tagHash (env f) (tag i x.decompProof.gs)) cfg.srs.g2 x.decompProof.gs x.decompProof.proof = .ok () ∧
      (univ.filter (A.Good S tag cfg hD k sh pk v f i)).card ≤ d).card ≤ (k + 2) * (d + 1) * Fintype.card (D → ZMod r) := by
  let p0 : D := ⟨_, hD i0 H gr⟩
  let q : List (ZMod r) → D := fun l => match l with
    | [] => p0
    | e :: l => match share e with
      | some sh => A.query sh pk v l
      | none => p0
  let o : List (ZMod r) → Option (Unit × G2 × DLK.Proof r G2) := fun l => match l with
    | [] => none
    | e :: l => (share e).bind fun sh => ((A.out sh pk v l).2.get i).bind fun x =>
      if x.1.decompProof.gs = H then none else some ((), x.1.decompProof.gs, x.1.decompProof.proof)
  let cr : List (ZMod r) → D := fun l => match o l with
    | some (_, s, p) => ⟨_, hD i s p.1⟩
    | none => p0
  have hans : ∀ f sh, share (f p0) = some sh → Spec.answers q f (k + 1) = f p0 :: Spec.answers (A.query sh pk v) f k := by
    intro f sh hs
    rw [answers_cons]
    show f p0 :: Spec.answers (fun l => q (f p0 :: l)) f k = _
    congr 2
    funext l
    simp only [q, hs]
  have ho : ∀ f sh x w, share (f p0) = some sh → (A.run k sh pk v f).2.get i = some (x, w) → x.decompProof.gs ≠ H →
      o (Spec.answers q f (k + 1)) = some ((), x.decompProof.gs, x.decompProof.proof) := by
    intro f sh x w hs hx hH
    have hx' : (A.out sh pk v (Spec.answers (A.query sh pk v) f k)).2.get i = some (x, w) := hx
    rw [hans f sh hs]
    simp only [o, hs, Option.bind_some, hx', if_neg hH]
  have ho' : ∀ f sh s p, share (f p0) = some sh → o (Spec.answers q f (k + 1)) = some ((), s, p) →
      ∃ x w, (A.run k sh pk v f).2.get i = some (x, w) ∧ x.decompProof.gs = s ∧ x.decompProof.proof = p := by
    intro f sh s p hs h
    rw [hans f sh hs] at h
    simp only [o, hs, Option.bind_some] at h
    cases hx : (A.out sh pk v (Spec.answers (A.query sh pk v) f k)).2.get i with
    | none => rw [hx] at h; cases h
    | some y =>
      rw [hx, Option.bind_some] at h
      split at h
      · cases h
      · obtain ⟨-, h⟩ := Prod.mk.inj (Option.some.inj h)
        obtain ⟨h1, h2⟩ := Prod.mk.inj h
        exact ⟨y.1, y.2, hx, h1, h2⟩
  have hcr : ∀ l s p, o l = some ((), s, p) → cr l = ⟨_, hD i s p.1⟩ := by
    intro l s p h
    simp only [cr, h]
  have h := extract_gen (τ := Unit) (fun _ s a => Spec.tagged S tag cfg.srs.g2 i s a) (fun _ => True)
    (fun _ s a _ s' a' _ _ h => hinj _ _ _ _ _ _ h) cfg.srs.g2 D env henv (k + 1) q o cr (fun _ _ _ _ _ => trivial)
    (fun l t s p h => congrArg Subtype.val (hcr l s p h)) d
  simp only at h
  refine le_trans (Nat.mul_le_mul_left r (card_le_card fun f hf => ?_)) h
  simp only [mem_filter, mem_univ, true_and] at hf ⊢
  obtain ⟨sh, x, w, hs, hx, hH, hv, hd⟩ := hf
  have hrun := ho f sh x w hs hx hH
  obtain ⟨h1, h2⟩ := dlk_verify_ok hv
  refine ⟨(), _, _, hrun, (hashToField_tag ..).symm.trans h1, h2, le_trans (card_le_card fun c hc => ?_) hd⟩
  simp only [mem_filter, mem_univ, true_and] at hc ⊢
  obtain ⟨_, s', p', hr', hl⟩ := hc
  rw [hcr _ _ _ hrun] at hr'
  have hne : p0 ≠ ⟨_, hD i x.decompProof.gs x.decompProof.proof.1⟩ := fun h =>
    hH (hinj _ _ _ _ _ _ (congrArg Subtype.val h)).1.symm
  obtain ⟨x', w', hx', rfl, rfl⟩ := ho' _ sh s' p' (by rw [Function.update_of_ne hne]; exact hs) hr'
  intro y wy hy hyH
  obtain ⟨rfl, rfl⟩ := Prod.mk.inj (Option.some.inj (hy.symm.trans hx))
  have hcrit : A.crit S tag cfg hD k sh pk v f i = ⟨_, hD i y.decompProof.gs y.decompProof.proof.1⟩ :=
    Subtype.ext (predictor_crit S tag cfg hD A k pk v hy)
  rw [Spec.Predictor.log, Spec.Predictor.rerun, hcrit, Spec.logFrom, hy, hx']
  exact hl

include hids in
/-- From good answers the solver gets `s g1`. -/
theorem solution_ok (hr : n * (2 ^ 64 - 1) < r) {sh : PVSSShare r G1 G2} {f : D → ZMod r} {s : ZMod r}
    (hs : sh.signedProof.decompProof.gs = s • cfg.srs.g2) (hg : ∀ y : ZMod r, y • cfg.srs.g2 = 0 → y = 0)
    (hw : A.Wins S env tag cfg k sh pk v f) (c : ℕ → ZMod r) (hc : ∀ i, A.Good S tag cfg hD k sh pk v f i (c i)) :
    A.solution S tag cfg hD k sh pk v f c = s • cfg.srs.g1 := by
  obtain ⟨-, ⟨i, x0, w, h1, h2, h3⟩, x, h4, h5⟩ := hw
  unfold Spec.Predictor.solution
  simp only
  set H := sh.signedProof.decompProof.gs with hH
  set o := A.run k sh pk v f with hoo
  have hids' : ∀ i x, o.2.get i = some x → i < n := fun i x h => hids sh _ i x h
  have hne : (Spec.weightAt H o.2 : ZMod r) ≠ 0 := by
    rw [Ne, ZMod.natCast_eq_zero_iff]
    intro hd
    have := Nat.le_of_dvd (weightOf_pos H o.2 h1 h2 h3) hd
    have := weightOf_le H o.2 hids'
    omega
  have hsp := weightedGs_split cfg.srs.g2 H o.2 (fun i => A.log S tag cfg hD k sh pk v f i (c i))
    fun i x w hx hxH => hc i x w hx hxH
  rw [h4, hs, smul_smul, ← add_smul, ← sub_eq_zero, ← sub_smul] at hsp
  have hx := sub_eq_zero.1 (hg _ hsp)
  rw [← hs] at hx
  rw [inv_smul_eq_iff₀ hne, h5, hx, smul_smul, add_smul, add_sub_cancel_right, mul_comm]

end Extract

/-! ### The theorem -/

section Main

variable {D : Finset (List UInt8)} (S0 : Suite r G1 G2 K) (env : (D → ZMod r) → HashEnv r)
  (henv : ∀ f (x : D), hashToField (ε := NIZKError) (env f) (ascii "DLKNIZK") x.1 = .ok (f x)) (tag : ℕ → G2 → List UInt8)
  (m : Mode) (cfg : Config G1 G2)
  (hD : ∀ i gs a, Spec.tagged S0 tag cfg.srs.g2 i gs a ∈ D)
  (hinj : ∀ i gs a i' gs' a', Spec.tagged S0 tag cfg.srs.g2 i gs a = Spec.tagged S0 tag cfg.srs.g2 i' gs' a' → gs = gs' ∧ a = a')
  (hg : ∀ y : ZMod r, y • cfg.srs.g2 = 0 → y = 0)
  (ht : cfg.degree + 1 < 2 ^ 58) (hn : cfg.numParticipants < r) (hr : cfg.numParticipants * (2 ^ 64 - 1) < r)
  (node : (ℕ → G1) → Node r G1 G2) (skEd : SecretKey) (id : ℕ) (hnode : ∀ pk, Spec.DealerFor cfg skEd id pk (node pk))
  (B : Finset ℕ) (hB : ∀ i ∈ B, i < cfg.numParticipants) (hBt : B.card = cfg.degree) (P : ℕ → G1)
  (a : ZMod r) (ha : a ≠ 0) (A : Spec.Predictor r G1 G2 B D)
  (hids : ∀ sh pk v l i x, (A.out sh pk v l).2.get i = some x → i < cfg.numParticipants) (k d : ℕ)

theorem mul_card_le_of_fibers {X Y : Type} [Fintype X] [Fintype Y] [DecidableEq X] (T : Finset Y) (φ : Y → X) (N M : ℕ)
    (h : ∀ x, N * (T.filter fun y => φ y = x).card ≤ M) : N * T.card ≤ Fintype.card X * M := by
  rw [card_eq_sum_card_fiberwise (f := φ) (t := univ) (fun _ _ => mem_univ _), mul_sum]
  refine (sum_le_card_nsmul univ _ M fun x _ => h x).trans (le_of_eq ?_)
  rw [card_univ, smul_eq_mul]

include henv hinj hg ht hn hr hnode hB hBt hids in
open Classical in
/-- **C127** (extraction). For all but an `n (k + 2) (d + 1) / r` fraction of the runs, when the adversary wins then the solver succeeds. -/
theorem C127_extract :
    r * (univ.filter (Spec.RealBound S0 env tag m cfg node id B P fun sh pk f v s =>
      A.Wins S0 env tag cfg k sh pk v f ∧ ¬ A.Solved S0 tag cfg hD k sh pk v d f s)).card ≤
        cfg.numParticipants * ((k + 2) * (d + 1)) * Fintype.card (Spec.RealDraws r cfg.degree cfg.numParticipants D) := by
  set T := univ.filter (Spec.RealBound S0 env tag m cfg node id B P fun sh pk f v s =>
      A.Wins S0 env tag cfg k sh pk v f ∧ ¬ A.Solved S0 tag cfg hD k sh pk v d f s) with hT
  have hone : (1 : ZMod r) ≠ 0 := one_ne_zero
  refine le_trans (mul_card_le_of_fibers T (fun x => (x.1, x.2.1, x.2.2.1)) r
    (cfg.numParticipants * ((k + 2) * (d + 1) * Fintype.card (D → ZMod r))) ?_) (le_of_eq ?_)
  · rintro ⟨c, sk, nonce⟩
    let pk := Spec.keys B P cfg.srs.g1 sk
    let v : B → ZMod r := fun i => Spec.evalAt c (Spec.point r i)
    let share : ZMod r → Option (PVSSShare r G1 G2) := fun e =>
      match Spec.simShare S0 skEd id cfg.numParticipants B P cfg.srs.g2 (c 0 • cfg.srs.g2) ((1 : ZMod r) • cfg.srs.g1)
        (c 0 • (1 : ZMod r) • cfg.srs.g1) v (fun j => sk j * 1⁻¹) (nonce - c 0 * e) e with
      | .ok sh => some sh
      | _ => none
    have hshare : ∀ e sh, share e = some sh → sh.signedProof.decompProof.gs = c 0 • cfg.srs.g2 := by
      intro e sh h
      simp only [share] at h
      split at h
      · next sh' h' =>
        obtain rfl := Option.some.inj h
        unfold Spec.simShare at h'
        simp only [Res.bind_eq_ok] at h'
        obtain ⟨sig, -, h'⟩ := h'
        rw [← Res.ok.inj h']
      · cases h
    have hi := fun i => extract_behind S0 env henv tag cfg hD hinj A k pk v d share (c 0 • cfg.srs.g2) (nonce • cfg.srs.g2) id i
    refine le_trans (Nat.mul_le_mul_left r (le_trans ?_ (card_biUnion_le (s := range cfg.numParticipants) (t := fun i =>
      univ.filter fun f : D → ZMod r => ∃ sh x w, share (f ⟨_, hD id (c 0 • cfg.srs.g2) (nonce • cfg.srs.g2)⟩) = some sh ∧
      (A.run k sh pk v f).2.get i = some (x, w) ∧ x.decompProof.gs ≠ c 0 • cfg.srs.g2 ∧
      DLK.verify S0.c2 (Spec.tagHash (env f) (tag i x.decompProof.gs)) cfg.srs.g2 x.decompProof.gs x.decompProof.proof = .ok () ∧
      (univ.filter (A.Good S0 tag cfg hD k sh pk v f i)).card ≤ d)))) ?_
    · refine card_le_card_of_injOn (fun y => y.2.2.2) ?_ ?_
      · rintro ⟨c', sk', nonce', f⟩ hy
        simp only [coe_filter, Set.mem_ofPred_eq, Prod.mk.injEq] at hy
        obtain ⟨hy, rfl, rfl, rfl⟩ := hy
        simp only [hT, mem_filter, mem_univ, true_and] at hy
        obtain ⟨sh, rng', h1, hw, hns⟩ := hy
        have hsim := bound_eq_sim S0 env henv tag m cfg hD ht hn node skEd id hnode B hB hBt P 1 hone h1
        have hs : share (f ⟨_, hD id (c' 0 • cfg.srs.g2) (nonce' • cfg.srs.g2)⟩) = some sh := by
          simp only [share, v]
          rw [hsim]
        have hgs := hshare _ _ hs
        by_contra hno
        simp only [coe_biUnion, coe_range, Set.mem_Iio, Set.mem_iUnion, coe_filter, mem_univ, true_and, Set.mem_ofPred_eq, not_exists,
          not_and, not_le] at hno
        refine hns ⟨fun i x w hx hxH => ?_, fun cc hcc => ?_⟩
        · exact hno i (hids _ _ _ _ _ _ hx) sh x w hs hx (by rw [← hgs]; exact hxH) (hw.1 i x w hx hxH)
        · exact solution_ok S0 env tag cfg hD A k _ _ cfg.numParticipants (fun sh l i x h => hids _ _ _ _ _ _ h) hr hgs hg hw cc hcc
      · rintro ⟨c1, sk1, n1, f1⟩ h1 ⟨c2, sk2, n2, f2⟩ h2 h
        simp only [coe_filter, Set.mem_ofPred_eq, Prod.mk.injEq] at h1 h2
        obtain ⟨-, rfl, rfl, rfl⟩ := h1
        obtain ⟨-, rfl, rfl, rfl⟩ := h2
        simp only at h
        rw [h]
    · rw [mul_sum]
      refine (sum_le_card_nsmul _ _ _ fun i _ => hi i).trans (le_of_eq ?_)
      rw [card_range, smul_eq_mul]
  · simp only [Fintype.card_prod]
    ring

include henv hinj hg ht hn hr hnode hB hBt ha hids in
open Classical in
/-- **C127**. An adversary that predicts the value of a transcript with an honest contribution for a fraction `ε` of the runs gives a
solver that succeeds, when it is run on the simulator, for at least a fraction `ε - n (k + 2) (d + 1) / r`: from `u`, `s u`, `g2`, `s g2` and
the adversary, the point `s g1`. -/
theorem C127 :
    r * ((univ.filter (Spec.RealBound S0 env tag m cfg node id B P fun sh pk f v _ => A.Wins S0 env tag cfg k sh pk v f)).card * r) ≤
      r * (univ.filter (Spec.SimBound S0 tag cfg skEd id B P (a • cfg.srs.g1) fun sh pk f v s =>
        A.Solved S0 tag cfg hD k sh pk v d f s)).card +
      cfg.numParticipants * ((k + 2) * (d + 1)) * Fintype.card (Spec.SimDraws r cfg.numParticipants B D) := by
  have h1 := C127_extract S0 env henv tag m cfg hD hinj hg ht hn hr node skEd id hnode B hB hBt P A hids k d
  have h2 := C127_simulation S0 env henv tag m cfg hD ht hn node skEd id hnode B hB hBt P a ha
    fun sh pk f v s => A.Solved S0 tag cfg hD k sh pk v d f s
  have h3 : (univ.filter (Spec.RealBound S0 env tag m cfg node id B P fun sh pk f v _ => A.Wins S0 env tag cfg k sh pk v f)).card ≤
      (univ.filter (Spec.RealBound S0 env tag m cfg node id B P fun sh pk f v s => A.Solved S0 tag cfg hD k sh pk v d f s)).card +
      (univ.filter (Spec.RealBound S0 env tag m cfg node id B P fun sh pk f v s =>
        A.Wins S0 env tag cfg k sh pk v f ∧ ¬ A.Solved S0 tag cfg hD k sh pk v d f s)).card := by
    refine le_trans (card_le_card fun x hx => ?_) (card_union_le _ _)
    simp only [mem_union, mem_filter, mem_univ, true_and] at hx ⊢
    obtain ⟨sh, rng', e, hw⟩ := hx
    by_cases hs : A.Solved S0 tag cfg hD k sh (Spec.keys B P cfg.srs.g1 x.2.1) (fun i => Spec.evalAt x.1 (Spec.point r i)) d x.2.2.2 (x.1 0)
    · exact Or.inl ⟨sh, rng', e, hs⟩
    · exact Or.inr ⟨sh, rng', e, hw, hs⟩
  have hcard : Fintype.card (Spec.SimDraws r cfg.numParticipants B D) =
      Fintype.card (Spec.RealDraws r cfg.degree cfg.numParticipants D) * r := by
    simp only [Fintype.card_prod, Fintype.card_fun, ZMod.card, Fintype.card_fin, Fintype.card_coe, hBt]
    ring
  rw [hcard]
  generalize (univ.filter (Spec.RealBound S0 env tag m cfg node id B P fun sh pk f v _ => A.Wins S0 env tag cfg k sh pk v f)).card = w at *
  generalize (univ.filter (Spec.RealBound S0 env tag m cfg node id B P fun sh pk f v s =>
    A.Solved S0 tag cfg hD k sh pk v d f s)).card = y at *
  calc r * (w * r) ≤ r * ((y + _) * r) := Nat.mul_le_mul_left _ (Nat.mul_le_mul_right _ h3)
    _ = r * (y * r) + r * _ * r := by ring
    _ ≤ r * _ + _ * r := Nat.add_le_add (Nat.mul_le_mul_left _ h2) (Nat.mul_le_mul_right _ h1)
    _ = _ := by ring

end Main

/-- All inputs with the statement in front. -/
def Toy.inputs (S : Suite r (ZMod r) (ZMod r) K) : Finset (List UInt8) :=
  univ.image fun p : ZMod r × ZMod r => Spec.tagged S (fun _ gs => S.c2.codec.enc gs) 1 0 p.1 p.2

theorem Toy.mem_inputs (S : Suite r (ZMod r) (ZMod r) K) (i : ℕ) (gs a : ZMod r) :
    Spec.tagged S (fun _ gs => S.c2.codec.enc gs) 1 i gs a ∈ Toy.inputs S := mem_image.2 ⟨(gs, a), mem_univ _, rfl⟩

theorem Toy.bigTable_total (D : Finset (List UInt8)) (f : D → ZMod r) : HashTotal (Toy.bigTable r D f) := fun _ _ => ⟨0, rfl⟩

theorem Toy.predictor (r : ℕ) [Fact r.Prime] (hr : r < 256 ^ 32) (hr2 : 4 * (2 ^ 64 - 1) < r) : ∃ (D : Finset (List UInt8)) (A : Spec.Predictor r (ZMod r) (ZMod r) {3} D),
    let tag : ℕ → ZMod r → List UInt8 := fun _ gs => (Toy.suite r).c2.codec.enc gs
    (∀ f (x : D), hashToField (ε := NIZKError) (Toy.bigTable r D f) (ascii "DLKNIZK") x.1 = .ok (f x)) ∧
    (∀ i gs a, Spec.tagged (Toy.suite r) tag 1 i gs a ∈ D) ∧
    (∀ i gs a i' gs' a', Spec.tagged (Toy.suite r) tag 1 i gs a = Spec.tagged (Toy.suite r) tag 1 i' gs' a' → gs = gs' ∧ a = a') ∧
    (∀ y : ZMod r, y • (1 : ZMod r) = 0 → y = 0) ∧ 4 * (2 ^ 64 - 1) < r ∧
    (∀ sh pk v l i x, (A.out sh pk v l).2.get i = some x → i < 4) ∧
    ∀ x : Spec.RealDraws r 1 4 D, x.1 ≠ 0 →
      Spec.RealBound (Toy.suite r) (Toy.bigTable r D) tag .checked ⟨⟨1, 1, 1⟩, 1, 4⟩ Toy.dealerWith 2 {3} (fun _ => 7)
        (fun sh pk f v _ => A.Wins (Toy.suite r) (Toy.bigTable r D) tag ⟨⟨1, 1, 1⟩, 1, 4⟩ 1 sh pk v f ∧
          (A.run 1 sh pk v f).2.entries.length = 2) x := by
  let tag : ℕ → ZMod r → List UInt8 := fun _ gs => (Toy.suite r).c2.codec.enc gs
  let D : Finset (List UInt8) := Toy.inputs (Toy.suite r)
  have hl : (Toy.curve r).codec.Lawful := (Toy.codecLaws r hr).c2
  have hD : ∀ i gs a, Spec.tagged (Toy.suite r) tag 1 i gs a ∈ D := Toy.mem_inputs (Toy.suite r)
  have hH : ∀ f, HashTotal (Toy.bigTable r D f) := fun f => Toy.bigTable_total D f
  have henv : ∀ f (x : D), hashToField (ε := NIZKError) (Toy.bigTable r D f) (ascii "DLKNIZK") x.1 = .ok (f x) := fun f x => by
    rw [Toy.bigTable_eq (by decide) hr.le, dif_pos x.2]
  let e1 : List (ZMod r) → SignedProof r (ZMod r) := fun l =>
    ⟨⟨(3, l.headD 0, 3 - 7 * l.headD 0), 7⟩, ⟨⟨List.replicate 32 0, rfl⟩, ⟨List.replicate 32 0, rfl⟩⟩⟩
  let A : Spec.Predictor r (ZMod r) (ZMod r) {3} D :=
    ⟨fun _ _ _ _ => ⟨_, hD 1 7 3⟩, fun sh _ _ l => (sh.signedProof.decompProof.gs + 14,
      BMap.ofList [(1, (e1 l, 2)), (2, (sh.signedProof, 1))])⟩
  have hc : ∀ sh pk v l, (A.out sh pk v l).2.entries = [(1, (e1 l, 2)), (2, (sh.signedProof, 1))] := fun sh pk v l => rfl
  have hget : ∀ sh pk v l i x w, (A.out sh pk v l).2.get i = some (x, w) →
      i = 1 ∧ x = e1 l ∧ w = 2 ∨ i = 2 ∧ x = sh.signedProof ∧ w = 1 := by
    intro sh pk v l i x w h
    have := (BMap.mem_entries _).2 h
    rw [hc] at this
    simpa using this
  refine ⟨D, A, henv, hD, fun i gs a i' gs' a' h => ?_, fun y h => by simpa using h, hr2,
    fun sh pk v l i x h => ?_, ?_⟩
  · obtain ⟨h1, h2⟩ := hl.append_inj h
    exact ⟨h1, hl.inj (List.append_cancel_left h2)⟩
  · rcases hget sh pk v l i x.1 x.2 h with ⟨rfl, -⟩ | ⟨rfl, -⟩ <;> omega
  rintro ⟨c, sk, k, f⟩ hc0
  have hnd := Toy.dealerWith_ok (Spec.keys {3} (fun _ => (7 : ZMod r)) 1 sk)
  obtain ⟨⟨sh, rng'⟩, hsh⟩ := (C73 { Toy.suite r with hash := Spec.tagHash (Toy.bigTable r D f) (tag 2 (c 0 • 1)) }
    (fun p msg => hH f p _) .checked (Toy.dealerWith (Spec.keys {3} (fun _ => 7) 1 sk)) (Spec.withPrefix c fun _ => k)
    (show 1 + 1 < 2 ^ 58 by decide)).1.2
    ⟨show 1 ≤ 4 by decide, hnd.all, show 2 < 4 by decide, by
      obtain ⟨j, hj⟩ := Function.ne_iff.1 hc0
      exact ⟨j, by show (j : ℕ) ≤ 1; omega, by rw [Spec.withPrefix, dif_pos j.2]; exact hj⟩,
      Toy.edLaws.keypair_ok _⟩
  refine ⟨sh, rng', hsh, ⟨fun i x w hx hxH => ?_, ⟨2, sh.signedProof, 1, rfl, rfl, by decide⟩, sh.signedProof.decompProof.gs + 14, ?_, ?_⟩, rfl⟩
  · rcases hget _ _ _ _ i x w hx with ⟨-, rfl, -⟩ | ⟨-, rfl, -⟩
    · refine ((C39 _ _ _ _ _ _ _ (f ⟨_, hD 1 7 3⟩) ((hashToField_tag ..).trans (henv f ⟨_, hD 1 7 3⟩))).1).2 ⟨rfl, ?_⟩
      show (3 - 7 * f ⟨_, hD 1 7 3⟩) • (1 : ZMod r) + f ⟨_, hD 1 7 3⟩ • 7 = 3
      simp only [smul_eq_mul]
      ring
    · exact absurd rfl hxH
  · rw [Spec.weightedGs]
    show (([(1, (e1 _, 2)), (2, (sh.signedProof, 1))] : List (ℕ × SignedProof r (ZMod r) × UInt64)).map _).sum = _
    simp [e1]
    ring
  · show sh.signedProof.decompProof.gs + 14 = (sh.signedProof.decompProof.gs + 14) • (1 : ZMod r)
    simp


/-- Non-vacuity of C127 and C127_deal, in groups of the order of BLS12-381: four parties, party 3 is corrupted, party 2 is the honest dealer. The adversary
adds twice the contribution 7, of which it knows the logarithm, with an honest proof made with one look-up, and (in these groups `gs` is the
secret) predicts the value of the transcript. All hypotheses are met, and it wins in every run with a non-zero polynomial. -/
example : ∃ (D : Finset (List UInt8)) (A : Spec.Predictor blsR (ZMod blsR) (ZMod blsR) {3} D),
    let tag : ℕ → ZMod blsR → List UInt8 := fun _ gs => (Toy.suite blsR).c2.codec.enc gs
    (∀ f (x : D), hashToField (ε := NIZKError) (Toy.bigTable blsR D f) (ascii "DLKNIZK") x.1 = .ok (f x)) ∧
    (∀ i gs a, Spec.tagged (Toy.suite blsR) tag 1 i gs a ∈ D) ∧
    (∀ i gs a i' gs' a', Spec.tagged (Toy.suite blsR) tag 1 i gs a = Spec.tagged (Toy.suite blsR) tag 1 i' gs' a' → gs = gs' ∧ a = a') ∧
    (∀ y : ZMod blsR, y • (1 : ZMod blsR) = 0 → y = 0) ∧ 4 * (2 ^ 64 - 1) < blsR ∧
    (∀ sh pk v l i x, (A.out sh pk v l).2.get i = some x → i < 4) ∧
    ∀ x : Spec.RealDraws blsR 1 4 D, x.1 ≠ 0 →
      Spec.RealBound (Toy.suite blsR) (Toy.bigTable blsR D) tag .checked ⟨⟨1, 1, 1⟩, 1, 4⟩ Toy.dealerWith 2 {3} (fun _ => 7)
        (fun sh pk f v _ => A.Wins (Toy.suite blsR) (Toy.bigTable blsR D) tag ⟨⟨1, 1, 1⟩, 1, 4⟩ 1 sh pk v f ∧
          (A.run 1 sh pk v f).2.entries.length = 2) x :=
  Toy.predictor blsR (by unfold blsR; norm_num) (by unfold blsR; norm_num)

end Verif
