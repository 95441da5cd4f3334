import Verif.Props.Share
import Verif.Props.Privacy
import Verif.Props.Oracle
import Mathlib.LinearAlgebra.Lagrange

/-!
# Predicting the secret from a share solves a Diffie–Hellman problem: C95

The simulator is given `u`, `s • u` in the first group and `g2`, `s • g2` in the second, but neither `s` nor `s • g1`. It makes up
the keys of the honest parties and a whole share of the secret `s`; what `t` corrupted parties see of it is distributed
exactly as the share that `Node::share` deals.
-/

open Finset Polynomial

namespace Verif

set_option linter.unusedSectionVars false

variable {r : ℕ} [Fact r.Prime] {G1 G2 K : Type}
  [AddCommGroup G1] [DecidableEq G1] [AddCommGroup G2] [DecidableEq G2] [CommMonoid K] [DecidableEq K]
  [Module (ZMod r) G1] [Module (ZMod r) G2]

/-- Lagrange coefficient: the polynomial that is one at `x` and zero at the other points of `X`, at `y`. -/
def Spec.lag (X : Finset (ZMod r)) (x y : ZMod r) : ZMod r := ∏ w ∈ X.erase x, (y - w) * (x - w)⁻¹

/-- The points at which the simulator knows the polynomial: zero (in the exponent) and those of the corrupted parties. -/
def Spec.known (r : ℕ) [Fact r.Prime] (B : Finset ℕ) : Finset (ZMod r) := insert 0 (B.image (Spec.point r))

/-- The part of the value at party `j` that the simulator knows. -/
def Spec.knownPart (B : Finset ℕ) (v : B → ZMod r) (j : ℕ) : ZMod r :=
  ∑ i : B, Spec.lag (Spec.known r B) (Spec.point r i) (Spec.point r j) * v i

/-- The simulated share of party `id`, from `sg2 = s • g2`, `u` and `su = s • u`: `v` are the values of the corrupted parties `B` with
keys `P`; the honest parties have the keys `x j • u`; `z` and `c` are the response and challenge of the proof. -/
def Spec.simShare (S : Suite r G1 G2 K) (skEd : SecretKey) (id n : ℕ) (B : Finset ℕ) (P : ℕ → G1) (g2 sg2 : G2) (u su : G1)
    (v : B → ZMod r) (x : Fin n → ZMod r) (z c : ZMod r) : Res PVSSError (PVSSShare r G1 G2) := do
  let lag := fun j : ℕ => Spec.lag (Spec.known r B) 0 (Spec.point r j)
  let comms := (List.finRange n).map fun j : Fin n => lag j • sg2 + Spec.knownPart B v j • g2
  let encs := (List.finRange n).map fun j : Fin n =>
    if h : (j : ℕ) ∈ B then v ⟨j, h⟩ • P j else x j • (lag j • su + Spec.knownPart B v j • u)
  let d : DecompProof r G2 := ⟨(z • g2 + c • sg2, c, z), sg2⟩
  let sig ← Signature.new S.ed (d.digest S) skEd
  .ok ⟨id, ⟨encs, comms⟩, ⟨d, sig⟩⟩

theorem lag_eval {X : Finset (ZMod r)} {p : (ZMod r)[X]} (hp : p.natDegree < X.card) (y : ZMod r) :
    p.eval y = ∑ x ∈ X, Spec.lag X x y * p.eval x := by
  have h := Lagrange.eq_interpolate (s := X) (v := id) (f := p) (Set.injOn_id _)
    (lt_of_le_of_lt degree_le_natDegree (by exact_mod_cast hp))
  conv_lhs => rw [h]
  rw [Lagrange.interpolate_apply, eval_finsetSum]
  refine sum_congr rfl fun x _ => ?_
  rw [eval_mul, eval_C, mul_comm]
  congr 1
  rw [Lagrange.basis, eval_prod, Spec.lag]
  refine prod_congr rfl fun w _ => ?_
  rw [Lagrange.basisDivisor]
  simp only [id, eval_mul, eval_C, eval_sub, eval_X]
  ring

theorem point_inj {n : ℕ} (hn : n < r) {i j : ℕ} (hi : i < n) (hj : j < n) (h : Spec.point r i = Spec.point r j) : i = j := by
  have h1 := (ZMod.natCast_eq_natCast_iff' _ _ _).1 h
  rw [Nat.mod_eq_of_lt (by omega), Nat.mod_eq_of_lt (by omega)] at h1
  omega

section
variable {n : ℕ} {B : Finset ℕ} (hn : n < r) (hB : ∀ i ∈ B, i < n)
include hn hB

theorem zero_not_mem_image : (0 : ZMod r) ∉ B.image (Spec.point r) := by
  intro h
  obtain ⟨i, hi, h⟩ := mem_image.1 h
  exact point_ne_zero hn (hB i hi) h

theorem card_known : (Spec.known r B).card = B.card + 1 := by
  rw [Spec.known, card_insert_of_notMem (zero_not_mem_image hn hB), card_image_of_injOn]
  intro i hi j hj h
  exact point_inj hn (hB i hi) (hB j hj) h

/-- A polynomial of degree at most `t`, from its values at zero and at `t` parties. -/
theorem eval_known {p : (ZMod r)[X]} (hp : p.natDegree ≤ B.card) (j : ℕ) :
    p.eval (Spec.point r j) = Spec.lag (Spec.known r B) 0 (Spec.point r j) * p.eval 0 +
      Spec.knownPart B (fun i => p.eval (Spec.point r i)) j := by
  rw [lag_eval (X := Spec.known r B) (by rw [card_known hn hB]; omega) (Spec.point r j)]
  rw [show ∑ x ∈ Spec.known r B, Spec.lag (Spec.known r B) x (Spec.point r j) * p.eval x =
    Spec.lag (Spec.known r B) 0 (Spec.point r j) * p.eval 0 +
      ∑ x ∈ B.image (Spec.point r), Spec.lag (Spec.known r B) x (Spec.point r j) * p.eval x from
    sum_insert (zero_not_mem_image hn hB)]
  congr 1
  rw [sum_image fun i hi j hj h => point_inj hn (hB i hi) (hB j hj) h, Spec.knownPart]
  exact (sum_coe_sort B fun i => Spec.lag (Spec.known r B) (Spec.point r i) (Spec.point r j) * p.eval (Spec.point r i)).symm

/-- Coefficients are determined by the values at zero and at `t` parties. -/
theorem coeffs_known {t : ℕ} (ht : B.card = t) {c c' : Fin (t + 1) → ZMod r} (h0 : Spec.evalAt c 0 = Spec.evalAt c' 0)
    (h : ∀ i ∈ B, Spec.evalAt c (Spec.point r i) = Spec.evalAt c' (Spec.point r i)) : c = c' := by
  let p : (ZMod r)[X] := ∑ k : Fin (t + 1), Polynomial.C (c k - c' k) * X ^ (k : ℕ)
  have hev : ∀ x, p.eval x = Spec.evalAt c x - Spec.evalAt c' x := by
    intro x
    simp only [p, eval_finsetSum, eval_mul, eval_C, eval_pow, eval_X, Spec.evalAt, ← sum_sub_distrib, sub_mul]
  have hdeg : p.natDegree ≤ t := by
    refine natDegree_sum_le_of_forall_le _ _ fun k _ => ?_
    exact (natDegree_C_mul_X_pow_le _ _).trans (by omega)
  have hz : p = 0 := by
    refine eq_zero_of_natDegree_lt_card_of_eval_eq_zero' p (Spec.known r B) ?_ (by rw [card_known hn hB]; omega)
    intro x hx
    rw [hev]
    rcases mem_insert.1 hx with rfl | hx
    · rw [h0, sub_self]
    · obtain ⟨i, hi, rfl⟩ := mem_image.1 hx
      rw [h i hi, sub_self]
  funext k
  have hk : p.coeff k = c k - c' k := by
    simp only [p, finsetSum_coeff, coeff_C_mul, coeff_X_pow]
    rw [sum_eq_single k]
    · simp
    · intro b _ hb
      rw [if_neg fun h => hb (Fin.ext h).symm, mul_zero]
    · simp
  rw [hz, coeff_zero] at hk
  exact (sub_eq_zero.1 hk.symm)

end

theorem share_sig {S : Suite r G1 G2 K} {m : Mode} {nd : Node r G1 G2} {rng rng' : Rng r} {sh : PVSSShare r G1 G2}
    (h : nd.share S m rng = .ok (sh, rng')) :
    Signature.new S.ed (sh.signedProof.decompProof.digest S) nd.dealer.skEd =
      (.ok sh.signedProof.signature : Res PVSSError _) := by
  unfold Node.share at h
  rw [Res.bind_eq_ok] at h
  obtain ⟨⟨⟨core, sec⟩, rng1⟩, h1, h⟩ := h
  simp only [Res.bind_eq_ok] at h
  obtain ⟨⟨d, rng2⟩, h2, sig, h3, h⟩ := h
  obtain ⟨rfl, rfl⟩ := Prod.mk.inj (Res.ok.inj h)
  exact h3

theorem eval_coeffs {t : ℕ} {p : (ZMod r)[X]} {c : Fin (t + 1) → ZMod r} {tail : ℕ → ZMod r}
    (hp : ∀ k, p.coeff k = if k ≤ t then Spec.withPrefix c tail k else 0) (x : ZMod r) : p.eval x = Spec.evalAt c x := by
  have hdeg : p.natDegree ≤ t := by
    rw [natDegree_le_iff_coeff_eq_zero]
    intro k hk
    rw [hp, if_neg (by omega)]
  rw [eval_eq_sum_range' (Nat.lt_succ_of_le hdeg), Spec.evalAt,
    ← Fin.sum_univ_eq_sum_range (fun k => p.coeff k * x ^ k)]
  refine sum_congr rfl fun k _ => ?_
  rw [hp, if_pos (by omega), Spec.withPrefix, dif_pos k.2]

theorem evalAt_zero {t : ℕ} (c : Fin (t + 1) → ZMod r) : Spec.evalAt c 0 = c 0 := by
  rw [Spec.evalAt, Fin.sum_univ_succ]
  simp

/-- Keys of the parties: `P j` for corrupted ones, `x j` times the base for the others. -/
def Spec.keys {n : ℕ} (B : Finset ℕ) (P : ℕ → G1) (base : G1) (x : Fin n → ZMod r) (j : ℕ) : G1 :=
  if j ∈ B then P j else if h : j < n then x ⟨j, h⟩ • base else 0

/-- A dealt share is the simulated one. -/
theorem share_eq_sim (S : Suite r G1 G2 K) (m : Mode) (nd : Node r G1 G2) {t n : ℕ} (g1 : G1)
    (hcfg : nd.aggregator.config.degree = t ∧ nd.aggregator.config.numParticipants = n) (ht : t + 1 < 2 ^ 58) (hn : n < r)
    {B : Finset ℕ} (hB : ∀ i ∈ B, i < n) (hBt : B.card = t) (P : ℕ → G1) (a : ZMod r) (ha : a ≠ 0)
    (sk : Fin n → ZMod r)
    (hpk : ∀ i q, nd.aggregator.participants.get i = some q → q.pkSig = Spec.keys B P g1 sk i)
    (c : Fin (t + 1) → ZMod r) (k e : ZMod r) (sh : PVSSShare r G1 G2) (rng' : Rng r)
    (he : (hashToField S.hash (ascii "DLKNIZK") (S.c2.codec.enc nd.aggregator.config.srs.g2 ++
      S.c2.codec.enc (k • nd.aggregator.config.srs.g2)) : Res NIZKError _) = .ok e)
    (h : nd.share S m (Spec.withPrefix c fun _ => k) = .ok (sh, rng')) :
    Spec.simShare S nd.dealer.skEd nd.dealer.participant.id n B P nd.aggregator.config.srs.g2
      (c 0 • nd.aggregator.config.srs.g2) (a • g1) (c 0 • a • g1) (fun i => Spec.evalAt c (Spec.point r i))
      (fun j => sk j * a⁻¹) (k - c 0 * e) e = .ok sh := by
  obtain ⟨rfl, rfl⟩ := hcfg
  set g2 := nd.aggregator.config.srs.g2 with hg2
  have hsig := share_sig h
  obtain ⟨h1, ⟨p, hp, hsh⟩, h2, h3, h4, h5, -, -⟩ := C73_contents S m nd _ rng' sh _ hpk ht h
  have hev : ∀ x, p.eval x = Spec.evalAt c x := eval_coeffs hp
  have hr0 : Spec.withPrefix c (fun _ => k) 0 = c 0 := by simp [Spec.withPrefix]
  have hr1 : Spec.withPrefix c (fun _ => k) (nd.aggregator.config.degree + 1) = k := by simp [Spec.withPrefix]
  rw [hr0] at h2 h5
  rw [hr1] at h3 h5
  rw [h3] at h4
  have hc : sh.signedProof.decompProof.proof.2.1 = e := by
    have := h4.symm.trans he
    exact Res.ok.inj this
  rw [hc] at h5
  have hd : (⟨((k - c 0 * e) • g2 + e • c 0 • g2, e, k - c 0 * e), c 0 • g2⟩ : DecompProof r G2) =
      sh.signedProof.decompProof := by
    have e1 : (k - c 0 * e) • g2 + e • c 0 • g2 = k • g2 := by module
    rw [e1, ← h2, ← h3, ← h5, ← hc]
  have hval : ∀ j : ℕ, p.eval (Spec.point r j) = Spec.lag (Spec.known r B) 0 (Spec.point r j) * c 0 +
      Spec.knownPart B (fun i => Spec.evalAt c (Spec.point r i)) j := by
    intro j
    rw [eval_known hn hB (by rw [hBt]; exact hsh.degree) j, hev 0, evalAt_zero]
    simp only [hev]
  unfold Spec.simShare
  simp only [hd, hsig, Res.bind_ok']
  congr 1
  have hcomms : (List.finRange nd.aggregator.config.numParticipants).map (fun j : Fin _ =>
      Spec.lag (Spec.known r B) 0 (Spec.point r j) • c 0 • g2 +
        Spec.knownPart B (fun i => Spec.evalAt c (Spec.point r i)) j • g2) = sh.core.comms := by
    apply List.ext_getElem
    · simp [hsh.comms_length]
    · intro j hj1 hj2
      rw [hsh.comm j hj2, hval]
      simp only [List.getElem_map, List.getElem_finRange, Fin.cast_mk]
      module
  have hencs : (List.finRange nd.aggregator.config.numParticipants).map (fun j : Fin _ =>
      if h : (j : ℕ) ∈ B then (fun i : B => Spec.evalAt c (Spec.point r i)) ⟨j, h⟩ • P j else (sk j * a⁻¹) •
        (Spec.lag (Spec.known r B) 0 (Spec.point r j) • c 0 • a • g1 +
          Spec.knownPart B (fun i => Spec.evalAt c (Spec.point r i)) j • a • g1)) = sh.core.encs := by
    apply List.ext_getElem
    · simp [hsh.encs_length]
    · intro j hj1 hj2
      have hjn : j < nd.aggregator.config.numParticipants := by rw [hsh.encs_length] at hj2; exact hj2
      rw [hsh.enc j hj2, Spec.keys]
      simp only [List.getElem_map, List.getElem_finRange, Fin.cast_mk]
      by_cases hjB : j ∈ B
      · rw [dif_pos hjB, if_pos hjB, hev]
      · rw [dif_neg hjB, if_neg hjB, dif_pos hjn, hval]
        have : (1 : ZMod r) = a⁻¹ * a := (inv_mul_cancel₀ ha).symm
        simp only [smul_smul, ← add_smul]
        congr 1
        rw [mul_assoc, show ∀ l q : ZMod r, a⁻¹ * (l * (c 0 * a) + q * a) = (a⁻¹ * a) * (l * c 0 + q) from fun l q => by ring,
          ← this]
        ring
  rw [← h1, hcomms]
  have hcore : sh.core = ⟨sh.core.encs, sh.core.comms⟩ := rfl
  exact congrArg (fun l => (⟨sh.participantId, ⟨l, sh.core.comms⟩, sh.signedProof⟩ : PVSSShare r G1 G2)) hencs

/-- `nd` is the dealer `id` with EdDSA key `skEd` in the configuration `cfg`, and its participant table has the keys `pk`. -/
structure Spec.DealerFor (cfg : Config G1 G2) (skEd : SecretKey) (id : ℕ) (pk : ℕ → G1) (nd : Node r G1 G2) : Prop where
  config : nd.aggregator.config = cfg
  all : ∀ i < cfg.numParticipants, nd.aggregator.participants.get i ≠ none
  key : ∀ i q, nd.aggregator.participants.get i = some q → q.pkSig = pk i
  skEd : nd.dealer.skEd = skEd
  id : nd.dealer.participant.id = id

/-- The table `f` with the value `c` at `x`. -/
def Spec.programmed {D : Finset (List UInt8)} (f : D → ZMod r) (x : List UInt8) (c : ZMod r) : D → ZMod r :=
  if h : x ∈ D then Function.update f ⟨x, h⟩ c else f

/-- What a run of the dealer is about: coefficients, secret keys of the parties, nonce of the proof, hash table. -/
abbrev Spec.RealDraws (r t n : ℕ) (D : Finset (List UInt8)) : Type :=
  (Fin (t + 1) → ZMod r) × (Fin n → ZMod r) × ZMod r × (D → ZMod r)

/-- What a run of the simulator is about: the unknown secret, values of the corrupted parties, keys, response and challenge of
the proof, hash table. -/
abbrev Spec.SimDraws (r n : ℕ) (B : Finset ℕ) (D : Finset (List UInt8)) : Type :=
  ZMod r × (B → ZMod r) × (Fin n → ZMod r) × ZMod r × ZMod r × (D → ZMod r)

/-- The dealer's run succeeds, and `Q` holds of the share, the public keys, the hash table, the polynomial's values for the corrupted
parties and the secret. -/
def Spec.RealRun {D : Finset (List UInt8)} (S : (D → ZMod r) → Suite r G1 G2 K) (m : Mode) (cfg : Config G1 G2)
    (node : (ℕ → G1) → Node r G1 G2) (B : Finset ℕ) (P : ℕ → G1)
    (Q : PVSSShare r G1 G2 → (ℕ → G1) → (D → ZMod r) → (B → ZMod r) → ZMod r → Prop)
    (x : Spec.RealDraws r cfg.degree cfg.numParticipants D) : Prop :=
  ∃ sh rng', (node (Spec.keys B P cfg.srs.g1 x.2.1)).share (S x.2.2.2) m (Spec.withPrefix x.1 fun _ => x.2.2.1) = .ok (sh, rng') ∧
    Q sh (Spec.keys B P cfg.srs.g1 x.2.1) x.2.2.2 (fun i => Spec.evalAt x.1 (Spec.point r i)) (x.1 0)

/-- The same of the simulated share. The simulator gets `u`, `s • u` and `s • g2`; the hash table is programmed at one point. -/
def Spec.SimRun {D : Finset (List UInt8)} (S : (D → ZMod r) → Suite r G1 G2 K) (cfg : Config G1 G2)
    (skEd : SecretKey) (id : ℕ) (B : Finset ℕ) (P : ℕ → G1) (u : G1)
    (Q : PVSSShare r G1 G2 → (ℕ → G1) → (D → ZMod r) → (B → ZMod r) → ZMod r → Prop)
    (y : Spec.SimDraws r cfg.numParticipants B D) : Prop :=
  let (s, v, x, z, c, f) := y
  ∃ sh, Spec.simShare (S f) skEd id cfg.numParticipants B P cfg.srs.g2 (s • cfg.srs.g2) u (s • u) v x z c = .ok sh ∧
    Q sh (Spec.keys B P u x)
      (Spec.programmed f ((S f).c2.codec.enc cfg.srs.g2 ++ (S f).c2.codec.enc (z • cfg.srs.g2 + c • s • cfg.srs.g2)) c) v s

section Count

variable {D : Finset (List UInt8)} (S0 : Suite r G1 G2 K) (env : (D → ZMod r) → HashEnv r)
  (henv : ∀ f (x : D), hashToField (ε := NIZKError) (env f) (ascii "DLKNIZK") x.1 = .ok (f x)) (m : Mode) (cfg : Config G1 G2)
  (hD : ∀ k : ZMod r, S0.c2.codec.enc cfg.srs.g2 ++ S0.c2.codec.enc (k • cfg.srs.g2) ∈ D)
  (ht : cfg.degree + 1 < 2 ^ 58) (hn : cfg.numParticipants < r)
  (node : (ℕ → G1) → Node r G1 G2) (skEd : SecretKey) (id : ℕ) (hnode : ∀ pk, Spec.DealerFor cfg skEd id pk (node pk))
  (B : Finset ℕ) (hB : ∀ i ∈ B, i < cfg.numParticipants) (hBt : B.card = cfg.degree) (P : ℕ → G1)
  (a : ZMod r) (ha : a ≠ 0)
  (Q : PVSSShare r G1 G2 → (ℕ → G1) → (D → ZMod r) → (B → ZMod r) → ZMod r → Prop)
include henv hD ht hn hnode hB hBt ha

open Classical in
/-- **C95**. For every property `Q` of what `t` corrupted parties see and of the secret: whenever it holds for a fraction of the
dealer's runs, it holds for at least the same fraction of the simulator's runs (the simulator draws one scalar more). -/
theorem C95 :
    (univ.filter (Spec.RealRun (fun f => { S0 with hash := env f }) m cfg node B P Q)).card * r ≤
      (univ.filter (Spec.SimRun (fun f => { S0 with hash := env f }) cfg skEd id B P (a • cfg.srs.g1) Q)).card := by
  let pt : ZMod r → D := fun k => ⟨_, hD k⟩
  have hprod : ((univ.filter (Spec.RealRun (fun f => { S0 with hash := env f }) m cfg node B P Q)) ×ˢ
      (univ : Finset (ZMod r))).card =
      (univ.filter (Spec.RealRun (fun f => { S0 with hash := env f }) m cfg node B P Q)).card * r := by
    rw [card_product, card_univ, ZMod.card]
  rw [← hprod]
  refine card_le_card_of_injOn (fun p : Spec.RealDraws r cfg.degree cfg.numParticipants D × ZMod r =>
    (p.1.1 0, fun i => Spec.evalAt p.1.1 (Spec.point r i), fun j => p.1.2.1 j * a⁻¹,
      p.1.2.2.1 - p.1.1 0 * p.1.2.2.2 (pt p.1.2.2.1), p.1.2.2.2 (pt p.1.2.2.1),
      Function.update p.1.2.2.2 (pt p.1.2.2.1) p.2)) ?_ ?_
  · rintro ⟨⟨c, sk, k, f⟩, d⟩ hp
    simp only [coe_product, Set.mem_prod, mem_coe, mem_filter, mem_univ, true_and, and_true] at hp ⊢
    obtain ⟨sh, rng', h, hQ⟩ := hp
    simp only at h hQ
    have hkeys : Spec.keys B P (a • cfg.srs.g1) (fun j => sk j * a⁻¹) = Spec.keys B P cfg.srs.g1 sk := by
      funext j
      unfold Spec.keys
      split
      · rfl
      · split
        · rw [smul_smul, mul_assoc, inv_mul_cancel₀ ha, mul_one]
        · rfl
    have hnd := hnode (Spec.keys B P cfg.srs.g1 sk)
    have hx : (k - c 0 * f (pt k)) • cfg.srs.g2 + f (pt k) • c 0 • cfg.srs.g2 = k • cfg.srs.g2 := by module
    refine ⟨sh, ?_, ?_⟩
    · have := share_eq_sim { S0 with hash := env f } m (node (Spec.keys B P cfg.srs.g1 sk)) (t := cfg.degree)
        (n := cfg.numParticipants) cfg.srs.g1 (by rw [hnd.config]; exact ⟨rfl, rfl⟩) ht hn hB hBt P a ha sk hnd.key c k
        (f (pt k)) sh rng' (by rw [hnd.config]; exact henv f (pt k)) h
      rw [hnd.config, hnd.skEd, hnd.id] at this
      exact this
    · rw [hkeys]
      have hf : Spec.programmed (Function.update f (pt k) d)
          (S0.c2.codec.enc cfg.srs.g2 ++ S0.c2.codec.enc ((k - c 0 * f (pt k)) • cfg.srs.g2 + f (pt k) • c 0 • cfg.srs.g2))
          (f (pt k)) = f := by
        rw [hx, Spec.programmed, dif_pos (hD k)]
        show Function.update _ (pt k) _ = _
        rw [Function.update_idem, Function.update_eq_self]
      simp only [hf]
      exact hQ
  · rintro ⟨⟨c, sk, k, f⟩, d⟩ - ⟨⟨c', sk', k', f'⟩, d'⟩ - h
    simp only [Prod.mk.injEq] at h
    obtain ⟨h0, hv, hsk, hz, hc, hf⟩ := h
    have e1 : c = c' := coeffs_known hn hB hBt (by rw [evalAt_zero, evalAt_zero, h0])
      fun i hi => congrFun hv ⟨i, hi⟩
    have e2 : sk = sk' := funext fun j => mul_right_cancel₀ (inv_ne_zero ha) (congrFun hsk j)
    have e3 : k = k' := by
      rw [h0, hc] at hz
      exact sub_left_injective hz
    subst e1 e2 e3
    have e4 : d = d' := by
      have := congrFun hf (pt k)
      simpa using this
    have e5 : f = f' := by
      funext y
      by_cases hy : y = pt k
      · rw [hy]; exact hc
      · have := congrFun hf y
        simpa [Function.update_of_ne hy] using this
    rw [e4, e5]

open Classical in
/-- **C95** (exactness). Conversely the property holds for at most the same fraction of the simulator's runs, up to the runs of the
dealer with the zero polynomial (which `Node::share` refuses). -/
theorem C95_exact (hH : ∀ f, HashTotal (env f)) (h1 : 1 ≤ cfg.numParticipants) (hid : id < cfg.numParticipants)
    (hed : S0.ed.keypairOk skEd.bytes = true) :
    (univ.filter (Spec.SimRun (fun f => { S0 with hash := env f }) cfg skEd id B P (a • cfg.srs.g1) Q)).card ≤
      ((univ.filter (Spec.RealRun (fun f => { S0 with hash := env f }) m cfg node B P Q)).card +
        (univ.filter fun x : Spec.RealDraws r cfg.degree cfg.numParticipants D => x.1 = 0).card) * r := by
  let S : (D → ZMod r) → Suite r G1 G2 K := fun f => { S0 with hash := env f }
  let R := univ.filter (Spec.RealRun S m cfg node B P Q)
  let R' := univ.filter (Spec.RealRun S m cfg node B P fun a b c d e => ¬ Q a b c d e)
  let T := univ.filter (Spec.SimRun S cfg skEd id B P (a • cfg.srs.g1) Q)
  let T' := univ.filter (Spec.SimRun S cfg skEd id B P (a • cfg.srs.g1) fun a b c d e => ¬ Q a b c d e)
  let Z := univ.filter fun x : Spec.RealDraws r cfg.degree cfg.numParticipants D => x.1 = 0
  have hR' : R'.card * r ≤ T'.card :=
    C95 S0 env henv m cfg hD ht hn node skEd id hnode B hB hBt P a ha fun a b c d e => ¬ Q a b c d e
  have hT : T.card + T'.card ≤ Fintype.card (Spec.SimDraws r cfg.numParticipants B D) := by
    rw [← card_union_of_disjoint]
    · exact card_le_univ _
    · rw [disjoint_left]
      intro y hy hy'
      simp only [T, T', mem_filter, mem_univ, true_and] at hy hy'
      obtain ⟨sh, e, hq⟩ := hy
      obtain ⟨sh', e', hq'⟩ := hy'
      obtain rfl : sh = sh' := Res.ok.inj (e.symm.trans e')
      exact hq' hq
  have hR : Fintype.card (Spec.RealDraws r cfg.degree cfg.numParticipants D) ≤ R.card + R'.card + Z.card := by
    rw [← card_univ]
    refine le_trans (card_le_card ?_) (le_trans (card_union_le (R ∪ R') Z) (Nat.add_le_add_right (card_union_le R R') _))
    rintro ⟨c, sk, k, f⟩ -
    by_cases hc : c = 0
    · exact mem_union_right _ (by simp [Z, hc])
    · apply mem_union_left
      have hnd := hnode (Spec.keys B P cfg.srs.g1 sk)
      obtain ⟨⟨sh, rng'⟩, hsh⟩ := (C73 (S f) (hH f) m (node (Spec.keys B P cfg.srs.g1 sk)) (Spec.withPrefix c fun _ => k)
        (by rw [hnd.config]; exact ht)).1.2 ⟨by rw [hnd.config]; exact h1, by rw [hnd.config]; exact hnd.all,
          by rw [hnd.config, hnd.id]; exact hid, by
            rw [hnd.config]
            obtain ⟨j, hj⟩ := Function.ne_iff.1 hc
            exact ⟨j, by omega, by rw [Spec.withPrefix, dif_pos j.2]; exact hj⟩, by rw [hnd.skEd]; exact hed⟩
      by_cases hq : Q sh (Spec.keys B P cfg.srs.g1 sk) f (fun i => Spec.evalAt c (Spec.point r i)) (c 0)
      · exact mem_union_left _ (by simp only [R, mem_filter, mem_univ, true_and]; exact ⟨sh, rng', hsh, hq⟩)
      · exact mem_union_right _ (by simp only [R', mem_filter, mem_univ, true_and]; exact ⟨sh, rng', hsh, hq⟩)
  have hcard : Fintype.card (Spec.SimDraws r cfg.numParticipants B D) =
      Fintype.card (Spec.RealDraws r cfg.degree cfg.numParticipants D) * r := by
    simp only [Fintype.card_prod, Fintype.card_fun, ZMod.card, Fintype.card_fin, Fintype.card_coe, hBt]
    ring
  have h2 := Nat.mul_le_mul_right r hR
  rw [← hcard] at h2
  show T.card ≤ (R.card + Z.card) * r
  have e : (R.card + R'.card + Z.card) * r = (R.card + Z.card) * r + R'.card * r := by ring
  omega

open Classical in
/-- **C95** (prediction). An adversary that, given the share, the public keys, the hash and the values of `t` corrupted parties,
outputs the secret `p(0) • g1` of the dealer for a fraction of the runs, outputs `s • g1` when run on the simulator for at least
the same fraction of runs: together they compute `s • g1` from `u`, `s • u`, `g2`, `s • g2`. -/
theorem C95_predict (adv : PVSSShare r G1 G2 → (ℕ → G1) → (D → ZMod r) → (B → ZMod r) → G1) :
    (univ.filter (Spec.RealRun (fun f => { S0 with hash := env f }) m cfg node B P
      fun sh pk f v s => adv sh pk f v = s • cfg.srs.g1)).card * r ≤
    (univ.filter (Spec.SimRun (fun f => { S0 with hash := env f }) cfg skEd id B P (a • cfg.srs.g1)
      fun sh pk f v s => adv sh pk f v = s • cfg.srs.g1)).card :=
  C95 S0 env henv m cfg hD ht hn node skEd id hnode B hB hBt P a ha _

open Classical in
/-- **C95** (indistinguishability). Let `adv` look at what `t` corrupted parties see and at a point of G1, and let its advantage be the
(scaled) difference of the numbers of runs for which it accepts the secret `p(0) • g1` and, on average over all `w`, `w • g1`. On the
simulator, where the task is to tell `s • g1` from `w • g1` given `u`, `s • u`, `g2`, `s • g2`, it has the same advantage up to the runs of
the dealer with the zero polynomial, an `r^-(t+1)` fraction. -/
theorem C95_decide (hH : ∀ f, HashTotal (env f)) (h1 : 1 ≤ cfg.numParticipants) (hid : id < cfg.numParticipants)
    (hed : S0.ed.keypairOk skEd.bytes = true)
    (adv : PVSSShare r G1 G2 → (ℕ → G1) → (D → ZMod r) → (B → ZMod r) → G1 → Prop) :
    let real : (ZMod r → ZMod r) → ℤ := fun x => (univ.filter (Spec.RealRun (fun f => { S0 with hash := env f }) m cfg node B P
      fun sh pk f v s => adv sh pk f v (x s • cfg.srs.g1))).card
    let sim : (ZMod r → ZMod r) → ℤ := fun x => (univ.filter (Spec.SimRun (fun f => { S0 with hash := env f }) cfg skEd id B P
      (a • cfg.srs.g1) fun sh pk f v s => adv sh pk f v (x s • cfg.srs.g1))).card
    let zero : ℤ := (univ.filter fun x : Spec.RealDraws r cfg.degree cfg.numParticipants D => x.1 = 0).card
    |(r * sim (fun s => s) - ∑ w : ZMod r, sim fun _ => w) - r * (r * real (fun s => s) - ∑ w : ZMod r, real fun _ => w)| ≤ r * (r * zero) := by
  intro real sim zero
  have lo : ∀ x : ZMod r → ZMod r, 0 ≤ sim x - r * real x := fun x => by
    have := C95 S0 env henv m cfg hD ht hn node skEd id hnode B hB hBt P a ha fun sh pk f v s => adv sh pk f v (x s • cfg.srs.g1)
    have : real x * r ≤ sim x := by
      simp only [sim, real]
      exact_mod_cast this
    linarith
  have hi : ∀ x : ZMod r → ZMod r, sim x - r * real x ≤ r * zero := fun x => by
    have := C95_exact S0 env henv m cfg hD ht hn node skEd id hnode B hB hBt P a ha
      (fun sh pk f v s => adv sh pk f v (x s • cfg.srs.g1)) hH h1 hid hed
    have : sim x ≤ (real x + zero) * r := by
      simp only [sim, real, zero]
      exact_mod_cast this
    linarith
  have e : (r * sim (fun s => s) - ∑ w : ZMod r, sim fun _ => w) - r * (r * real (fun s => s) - ∑ w : ZMod r, real fun _ => w) =
      r * (sim (fun s => s) - r * real (fun s => s)) - ∑ w : ZMod r, ((sim fun _ => w) - r * real fun _ => w) := by
    rw [sum_sub_distrib, ← mul_sum]
    ring
  rw [e, abs_le]
  have s0 : 0 ≤ ∑ w : ZMod r, ((sim fun _ => w) - r * real fun _ => w) := sum_nonneg fun w _ => lo _
  have s1 : ∑ w : ZMod r, ((sim fun _ => w) - r * real fun _ => w) ≤ r * (r * zero) := by
    refine (sum_le_card_nsmul univ _ (r * zero) fun w _ => hi _).trans (le_of_eq ?_)
    rw [card_univ, ZMod.card, nsmul_eq_mul]
  have hr : (0 : ℤ) ≤ r := Int.natCast_nonneg r
  have p0 := mul_nonneg hr (lo (fun s => s))
  have p1 := mul_le_mul_of_nonneg_left (hi (fun s => s)) hr
  constructor <;> linarith

end Count

/-- A concrete dealer among four parties with given keys. -/
def Toy.dealerWith (pk : ℕ → ZMod r) : Node r (ZMod r) (ZMod r) :=
  Node.new ⟨⟨1, 1, 1⟩, 1, 4⟩ ⟨0, ⟨Bytes.append32 (Toy.pad32 [1]) (Toy.ed.derivePk (Toy.pad32 [1]))⟩, ⟨2, pk 2, ⟨Toy.pad32 [1]⟩⟩⟩
    (BMap.ofList ((List.range 4).map fun i => (i, ⟨i, pk i, ⟨Toy.pad32 [1]⟩⟩)))

theorem Toy.dealerWith_ok (pk : ℕ → ZMod r) : Spec.DealerFor ⟨⟨1, 1, 1⟩, 1, 4⟩
    ⟨Bytes.append32 (Toy.pad32 [1]) (Toy.ed.derivePk (Toy.pad32 [1]))⟩ 2 pk (Toy.dealerWith pk) := by
  have hnd : (((List.range 4).map fun i => (i, (⟨i, pk i, ⟨Toy.pad32 [1]⟩⟩ : Participant (ZMod r)))).map Prod.fst).Nodup := by
    rw [List.map_map]
    simpa [Function.comp_def] using List.nodup_range
  refine ⟨rfl, fun i hi h => ?_, fun i q h => ?_, rfl, rfl⟩
  · have h : (BMap.ofList ((List.range 4).map fun i => (i, (⟨i, pk i, ⟨Toy.pad32 [1]⟩⟩ : Participant (ZMod r))))).get i = none := h
    rw [BMap.get_ofList_nodup hnd,
      BMap.lookupL_eq_some_of_nodup hnd (List.mem_map.2 ⟨i, List.mem_range.2 hi, rfl⟩)] at h
    cases h
  · have h : (BMap.ofList ((List.range 4).map fun i => (i, (⟨i, pk i, ⟨Toy.pad32 [1]⟩⟩ : Participant (ZMod r))))).get i = some q := h
    rw [BMap.get_ofList_nodup hnd] at h
    obtain ⟨j, -, hj⟩ := List.mem_map.1 (BMap.lookupL_eq_some_mem h)
    obtain ⟨rfl, rfl⟩ := Prod.mk.inj hj
    rfl

/-- Non-vacuity of C95: all hypotheses hold for a concrete dealer among four parties with the corrupted party 3, and (in the toy
groups, where `gs` is the secret) the adversary that outputs `gs` succeeds in every run with a non-zero polynomial. -/
example : ∃ D : Finset (List UInt8),
    (∀ f (x : D), hashToField (ε := NIZKError) (Toy.tableHash D f) (ascii "DLKNIZK") x.1 = .ok (f x)) ∧
    (∀ k : ZMod 13, (Toy.suite 13).c2.codec.enc (1 : ZMod 13) ++ (Toy.suite 13).c2.codec.enc (k • (1 : ZMod 13)) ∈ D) ∧
    (∀ f, HashTotal (Toy.tableHash D f)) ∧ ({3} : Finset ℕ).card = 1 ∧
    ∀ x : Spec.RealDraws 13 1 4 D, x.1 ≠ 0 →
      Spec.RealRun (fun f => { Toy.suite 13 with hash := Toy.tableHash D f }) .checked ⟨⟨1, 1, 1⟩, 1, 4⟩ Toy.dealerWith {3}
        (fun _ => 7) (fun sh _ _ _ s => sh.signedProof.decompProof.gs = s • (1 : ZMod 13)) x := by
  let D : Finset (List UInt8) := univ.image fun k : ZMod 13 =>
    (Toy.suite 13).c2.codec.enc (1 : ZMod 13) ++ (Toy.suite 13).c2.codec.enc (k • (1 : ZMod 13))
  have hH : ∀ f, HashTotal (Toy.tableHash D f) := fun f _ _ => ⟨0, rfl⟩
  refine ⟨D, fun f y => Toy.tableHash_eq (by decide) D f y, fun k => mem_image_of_mem _ (mem_univ k), hH, rfl, ?_⟩
  rintro ⟨c, sk, k, f⟩ hc
  have hnd := Toy.dealerWith_ok (Spec.keys {3} (fun _ => (7 : ZMod 13)) 1 sk)
  obtain ⟨⟨sh, rng'⟩, hsh⟩ := (C73 { Toy.suite 13 with hash := Toy.tableHash D f } (hH f) .checked
    (Toy.dealerWith (Spec.keys {3} (fun _ => 7) 1 sk)) (Spec.withPrefix c fun _ => k) (show 1 + 1 < 2 ^ 58 by decide)).1.2
    ⟨show 1 ≤ 4 by decide, hnd.all, show 2 < 4 by decide, by
      obtain ⟨j, hj⟩ := Function.ne_iff.1 hc
      exact ⟨j, by show (j : ℕ) ≤ 1; omega, by rw [Spec.withPrefix, dif_pos j.2]; exact hj⟩,
      Toy.edLaws.keypair_ok _⟩
  refine ⟨sh, rng', hsh, ?_⟩
  have := (C73_contents _ _ _ _ _ _ _ hnd.key (show 1 + 1 < 2 ^ 58 by decide) hsh).2.2.1
  exact this

end Verif
