import Verif.Lemmas.Deal
import Verif.Lemmas.Pairing
import Verif.Props.Interp

/-!
# Dealing, decryption, reconstruction: C01, C02, C04, C05, C09, C60
-/

open Finset Polynomial

set_option linter.unusedSectionVars false

namespace Verif

variable {r : ℕ} [Fact r.Prime] {G1 G2 K : Type}
  [AddCommGroup G1] [DecidableEq G1] [AddCommGroup G2] [DecidableEq G2]
  [Module (ZMod r) G1] [Module (ZMod r) G2]

/-! ### C01 -/

/-- **C01**. Whenever `share_pvss` returns `Ok`, the result is a sharing of one polynomial of degree at most
`config.degree`: every commitment, every encryption, both lengths, `p_0` and `my_secret`. No condition on sizes. -/
theorem C01 (m : Mode) (nd : Node r G1 G2) (rng rng' : Rng r) (core : PVSSCore G1 G2) (sec : PVSSShareSecrets r G1)
    (pk : ℕ → G1) (hpk : ∀ i q, nd.aggregator.participants.get i = some q → q.pkSig = pk i)
    (h : nd.sharePvss m rng = .ok ((core, sec), rng')) :
    ∃ p : (ZMod r)[X],
      Spec.Shares nd.aggregator.config.srs.g2 nd.aggregator.config.numParticipants nd.aggregator.config.degree pk core p ∧
      sec.p0 = p.eval 0 ∧
      sec.mySecret = p.eval (Spec.point r nd.dealer.participant.id) • nd.aggregator.config.srs.g1 := by
  rw [sharePvss_eq, Res.bind_eq_ok] at h
  obtain ⟨⟨poly, rng1⟩, hpoly, h⟩ := h
  obtain ⟨cnt, hcnt, rfl, rfl⟩ := polyRand_eq_ok hpoly
  obtain ⟨hid, hps, hne⟩ := (shareRest_ok_iff m nd _ _).1 ⟨_, h⟩
  have hk : Spec.KeyTable nd.aggregator.participants nd.aggregator.config.numParticipants pk := by
    intro i hi
    obtain ⟨q, hq⟩ := hps i hi
    exact ⟨q, hq, hpk i q hq⟩
  rw [shareRest_ok m nd _ _ pk hid hk hne] at h
  obtain ⟨h1, -⟩ := Prod.mk.inj (Res.ok.inj h)
  obtain ⟨rfl, rfl⟩ := Prod.mk.inj h1
  refine ⟨rngPoly rng cnt, ⟨rngPoly_natDegree' rng hcnt, ?_, ?_, ?_, ?_⟩, ?_, ?_⟩
  · simp [dealCore]
  · simp [dealCore]
  · intro i hi; simp [dealCore, rngPoly_eval]
  · intro i hi; simp [dealCore, rngPoly_eval]
  · simp [rngPoly_eval]
  · simp [rngPoly_eval]

/-- **C01** (randomness). Below the allocation limit the polynomial's coefficients are exactly the next `degree + 1` values
of the random stream, and exactly these are consumed. -/
theorem C01_sample (m : Mode) (nd : Node r G1 G2) (rng rng' : Rng r) (core : PVSSCore G1 G2)
    (sec : PVSSShareSecrets r G1) (pk : ℕ → G1)
    (hpk : ∀ i q, nd.aggregator.participants.get i = some q → q.pkSig = pk i)
    (ht : nd.aggregator.config.degree + 1 < 2 ^ 58)
    (h : nd.sharePvss m rng = .ok ((core, sec), rng')) :
    ∃ p : (ZMod r)[X], (∀ k, p.coeff k = if k ≤ nd.aggregator.config.degree then rng k else 0) ∧
      Spec.Shares nd.aggregator.config.srs.g2 nd.aggregator.config.numParticipants nd.aggregator.config.degree pk core p ∧
      sec.p0 = rng 0 ∧ ∀ i, rng' i = rng (nd.aggregator.config.degree + 1 + i) := by
  have h' := h
  rw [sharePvss_eq, polyRand_ok m rng ht, Res.bind_ok'] at h
  simp only at h
  obtain ⟨hid, hps, hne⟩ := (shareRest_ok_iff m nd _ _).1 ⟨_, h⟩
  have hk : Spec.KeyTable nd.aggregator.participants nd.aggregator.config.numParticipants pk := by
    intro i hi
    obtain ⟨q, hq⟩ := hps i hi
    exact ⟨q, hq, hpk i q hq⟩
  rw [shareRest_ok m nd _ _ pk hid hk hne] at h
  obtain ⟨h1, rfl⟩ := Prod.mk.inj (Res.ok.inj h)
  obtain ⟨rfl, rfl⟩ := Prod.mk.inj h1
  refine ⟨rngPoly rng (nd.aggregator.config.degree + 1), fun k => ?_, ⟨rngPoly_natDegree rng _, ?_, ?_, ?_, ?_⟩, ?_,
    fun i => rfl⟩
  · rw [rngPoly_coeff]
    simp
  · simp [dealCore]
  · simp [dealCore]
  · intro i hi; simp [dealCore, rngPoly_eval]
  · intro i hi; simp [dealCore, rngPoly_eval]
  · simp only
    rw [← rngPoly_eval, ← coeff_zero_eq_eval_zero, rngPoly_coeff]
    simp

/-! ### C02 -/

/-- **C02**. Exactly when dealing succeeds, with which error it fails, and when it panics. -/
theorem C02 (m : Mode) (nd : Node r G1 G2) (rng : Rng r) (ht : nd.aggregator.config.degree + 1 < 2 ^ 58) :
    let n := nd.aggregator.config.numParticipants
    let t := nd.aggregator.config.degree
    let missing := fun i => nd.aggregator.participants.get i = none
    ((∃ x, nd.sharePvss m rng = .ok x) ↔
      1 ≤ n ∧ (∀ i < n, ¬ missing i) ∧ nd.dealer.participant.id < n ∧ ∃ k ≤ t, rng k ≠ 0) ∧
    (∀ e, nd.sharePvss m rng = .err e ↔
      ∃ k < n, missing k ∧ (∀ i < k, ¬ missing i) ∧ e = .InvalidParticipantId k) ∧
    (nd.sharePvss m rng = .panic ↔
      n = 0 ∨ ((∀ i < n, ¬ missing i) ∧ (n ≤ nd.dealer.participant.id ∨ ∀ k ≤ t, rng k = 0))) := by
  intro n t missing
  have hsome : ∀ i, ¬ missing i ↔ ∃ q, nd.aggregator.participants.get i = some q := by
    intro i
    simp only [missing]
    cases nd.aggregator.participants.get i <;> simp
  have hnil : trim ((List.range (t + 1)).map rng) = [] ↔ ∀ k ≤ t, rng k = 0 := by
    rw [trim_eq_nil_iff]
    simp
  rw [sharePvss_eq, polyRand_ok m rng ht, Res.bind_ok']
  simp only
  by_cases h0 : n = 0
  · rw [shareRest_zero m nd _ _ h0]
    simp [h0]
  by_cases hm : ∀ i < n, ¬ missing i
  · have hm' : ∀ i < n, ∃ q, nd.aggregator.participants.get i = some q := fun i hi => (hsome i).1 (hm i hi)
    have herr : ¬ ∃ k < n, missing k ∧ (∀ i < k, ¬ missing i) := by
      rintro ⟨k, hk, hmk, -⟩; exact hm k hk hmk
    by_cases hid : nd.dealer.participant.id < n
    · by_cases hz : ∀ k ≤ t, rng k = 0
      · have : shareRest m nd (trim ((List.range (t + 1)).map rng)) (rng.drop (t + 1)) = .panic := by
          rw [hnil.2 hz, shareRest_full m nd _ _ _ (by omega : 1 ≤ n) (keyTable_of_get hm'), idx_evalsOf _ hid]
          rfl
        rw [this]
        refine ⟨?_, fun e => ?_, ?_⟩
        · simp only [reduceCtorEq, exists_false, false_iff]
          rintro ⟨-, -, -, k, hk, hne⟩; exact hne (hz k hk)
        · simp only [reduceCtorEq, false_iff]
          rintro ⟨k, hk, hmk, -, -⟩; exact hm k hk hmk
        · simp only [true_iff]; exact Or.inr ⟨hm, Or.inr hz⟩
      · rw [shareRest_ok m nd _ _ _ hid (keyTable_of_get hm') (mt hnil.1 hz)]
        refine ⟨?_, fun e => ?_, ?_⟩
        · simp only [Res.ok.injEq, exists_eq', true_iff]
          push Not at hz
          exact ⟨by omega, hm, hid, hz⟩
        · simp only [reduceCtorEq, false_iff]
          rintro ⟨k, hk, hmk, -, -⟩; exact hm k hk hmk
        · simp only [reduceCtorEq, false_iff]
          rintro (h | ⟨-, h | h⟩)
          · exact h0 h
          · omega
          · exact hz h
    · have : shareRest m nd (trim ((List.range (t + 1)).map rng)) (rng.drop (t + 1)) = .panic := by
        rw [shareRest_full m nd _ _ _ (by omega : 1 ≤ n) (keyTable_of_get hm'), idx_panic (by
          rw [length_evalsOf]; exact Nat.le_of_not_lt hid)]
        rfl
      rw [this]
      refine ⟨?_, fun e => ?_, ?_⟩
      · simp only [reduceCtorEq, exists_false, false_iff]
        rintro ⟨-, -, h, -⟩; exact hid h
      · simp only [reduceCtorEq, false_iff]
        rintro ⟨k, hk, hmk, -, -⟩; exact hm k hk hmk
      · simp only [true_iff]; exact Or.inr ⟨hm, Or.inl (Nat.le_of_not_lt hid)⟩
  · classical
    have hex : ∃ k, k < n ∧ missing k := by push Not at hm; exact hm
    have hs := Nat.find_spec hex
    have hmin : ∀ i < Nat.find hex, ¬ missing i := fun i hi hmi => Nat.find_min hex hi ⟨by omega, hmi⟩
    rw [shareRest_missing m nd _ _ hs.1 hs.2 (fun i hi => (hsome i).1 (hmin i hi))]
    refine ⟨?_, fun e => ?_, ?_⟩
    · simp only [reduceCtorEq, exists_false, false_iff]
      rintro ⟨-, h, -⟩; exact hm h
    · simp only [Res.err.injEq]
      constructor
      · rintro rfl; exact ⟨_, hs.1, hs.2, hmin, rfl⟩
      · rintro ⟨k, hk, hmk, hb, rfl⟩
        have h1 : Nat.find hex ≤ k := Nat.find_min' hex ⟨hk, hmk⟩
        have h2 : ¬ Nat.find hex < k := fun h => hb _ h hs.2
        congr 1; omega
    · simp only [reduceCtorEq, false_iff]
      rintro (h | ⟨h, -⟩)
      · exact h0 h
      · exact hm h

/-- **C02** (degrees at or above the allocation limit). Dealing never succeeds; it panics in sampling, whatever the participants,
except for `degree = 2^64 - 1` in builds where the number of coefficients wraps to zero: there a missing participant is still
reported as an error, and everything else panics. -/
theorem C02_large (m : Mode) (nd : Node r G1 G2) (rng : Rng r) (ht : 2 ^ 58 ≤ nd.aggregator.config.degree + 1)
    (h64 : nd.aggregator.config.degree < 2 ^ 64) :
    let n := nd.aggregator.config.numParticipants
    let missing := fun i => nd.aggregator.participants.get i = none
    (¬ (m = .wrapping ∧ nd.aggregator.config.degree = 2 ^ 64 - 1) → nd.sharePvss m rng = .panic) ∧
    (m = .wrapping → nd.aggregator.config.degree = 2 ^ 64 - 1 →
      (∀ k < n, missing k → (∀ i < k, ¬ missing i) → nd.sharePvss m rng = .err (.InvalidParticipantId k)) ∧
      ((∀ i < n, ¬ missing i) → nd.sharePvss m rng = .panic)) := by
  intro n missing
  have hsome : ∀ i, ¬ missing i → ∃ q, nd.aggregator.participants.get i = some q := by
    intro i
    simp only [missing]
    cases nd.aggregator.participants.get i <;> simp
  constructor
  · intro hne
    have hp : (polyRand m rng nd.aggregator.config.degree : Res PVSSError _) = .panic := by
      unfold polyRand polyCount addU64
      cases m with
      | checked =>
        simp only
        split
        · rw [Res.bind_ok', if_pos (by omega)]
        · rfl
      | wrapping =>
        simp only [true_and] at hne
        simp only
        rw [if_pos (by omega), Res.bind_ok', if_pos (by omega)]
      | wrappingIncl =>
        simp only
        rw [Res.bind_ok', if_pos (by omega)]
    rw [sharePvss_eq, hp]
    rfl
  · rintro rfl hd
    have hp : (polyRand .wrapping rng nd.aggregator.config.degree : Res PVSSError _) = .ok ([], rng.drop 0) := by
      unfold polyRand polyCount addU64
      simp only
      rw [if_neg (by omega), Res.bind_ok']
      have : (nd.aggregator.config.degree + 1) % 2 ^ 64 = 0 := by rw [hd]; rfl
      rw [this]
      simp [trim]
    rw [sharePvss_eq, hp, Res.bind_ok']
    simp only
    refine ⟨fun k hk hm hb => shareRest_missing _ nd _ _ hk hm fun i hi => hsome i (hb i hi), fun hm => ?_⟩
    by_cases h0 : n = 0
    · exact shareRest_zero _ nd _ _ h0
    have hk := keyTable_of_get (ps := nd.aggregator.participants) (n := n) fun i hi => hsome i (hm i hi)
    rw [shareRest_full _ nd _ _ _ (by omega : 1 ≤ n) hk]
    by_cases hid : nd.dealer.participant.id < n
    · rw [idx_evalsOf _ hid]; rfl
    · rw [idx_panic (by rw [length_evalsOf]; exact Nat.le_of_not_lt hid)]; rfl

/-! ### C05, C04 -/

/-- **C05**. `DecryptedShare::generate` panics exactly on an id out of range or a zero key; otherwise it returns the caller's
id and the unique element whose `sk`-multiple is the encryption; it never returns `Err`. -/
theorem C05 {ε : Type} (encs : List G1) (sk : ZMod r) (i : ℕ) :
    ((DecryptedShare.generate encs sk i : Res ε _) = .panic ↔ encs.length ≤ i ∨ sk = 0) ∧
    (∀ d, (DecryptedShare.generate encs sk i : Res ε _) = .ok d ↔
      sk ≠ 0 ∧ d.origin = i ∧ encs[i]? = some (sk • d.dec)) ∧
    (∀ e, (DecryptedShare.generate encs sk i : Res ε _) ≠ .err e) ∧
    (DecryptedShare.generate encs sk i : Res ε _) ≠ .diverge := by
  unfold DecryptedShare.generate
  by_cases hi : i < encs.length
  · by_cases hs : sk = 0
    · subst hs
      rw [idx_ok hi, Res.bind_ok', invUnwrap, if_pos rfl]
      simp
    · rw [idx_ok hi, Res.bind_ok', invUnwrap_ok hs, Res.bind_ok', mulRepr_eq_smul]
      refine ⟨by simp [hs]; omega, fun d => ?_, by simp, by simp⟩
      rw [List.getElem?_eq_getElem hi]
      simp only [Res.ok.injEq, ne_eq, hs, not_false_eq_true, Option.some.injEq, true_and]
      constructor
      · rintro rfl
        refine ⟨rfl, ?_⟩
        simp only
        rw [smul_smul, mul_inv_cancel₀ hs, one_smul]
      · rintro ⟨h1, h2⟩
        rw [h2, smul_smul, inv_mul_cancel₀ hs, one_smul]
        cases d; simp_all
  · rw [idx_panic (by omega)]
    have : encs[i]? = none := List.getElem?_eq_none (by omega)
    simp [this]; omega

/-- Decryption of a sharing, party by party. -/
theorem decrypt_shares {ε : Type} {g2 : G2} {n t : ℕ} {pk : ℕ → G1} {core : PVSSCore G1 G2} {p : (ZMod r)[X]}
    (hs : Spec.Shares g2 n t pk core p) {g1 : G1} {sk : ZMod r} {i : ℕ} (hi : i < n) (hsk : sk ≠ 0)
    (hpk : pk i = sk • g1) :
    (DecryptedShare.generate core.encs sk i : Res ε _) = .ok ⟨p.eval (Spec.point r i) • g1, i⟩ := by
  refine ((C05 core.encs sk i).2.1 _).2 ⟨hsk, rfl, ?_⟩
  have hi' : i < core.encs.length := by rw [hs.encs_length]; exact hi
  rw [List.getElem?_eq_getElem hi', hs.enc i hi', hpk]
  simp only
  rw [smul_smul, smul_smul, mul_comm]

/-- **C04**. For the output of `share_pvss` there is one polynomial `p` such that every party whose registered key is
`sk • g1` (`sk ≠ 0`) decrypts to `p(i+1) • g1`; the dealer, decrypting its own slot, obtains `my_secret`. -/
theorem C04 {ε : Type} (m : Mode) (nd : Node r G1 G2) (rng rng' : Rng r) (core : PVSSCore G1 G2)
    (sec : PVSSShareSecrets r G1) (h : nd.sharePvss m rng = .ok ((core, sec), rng')) :
    ∃ p : (ZMod r)[X], p.natDegree ≤ nd.aggregator.config.degree ∧ p.eval 0 = sec.p0 ∧
      (∀ i < nd.aggregator.config.numParticipants, ∀ q, nd.aggregator.participants.get i = some q → ∀ sk : ZMod r,
        sk ≠ 0 → q.pkSig = sk • nd.aggregator.config.srs.g1 →
        (DecryptedShare.generate core.encs sk i : Res ε _) =
          .ok ⟨p.eval (Spec.point r i) • nd.aggregator.config.srs.g1, i⟩) ∧
      (∀ q, nd.aggregator.participants.get nd.dealer.participant.id = some q → ∀ sk : ZMod r,
        sk ≠ 0 → q.pkSig = sk • nd.aggregator.config.srs.g1 →
        (DecryptedShare.generate core.encs sk nd.dealer.participant.id : Res ε _) =
          .ok ⟨sec.mySecret, nd.dealer.participant.id⟩) := by
  obtain ⟨p, hs, h0, hmy⟩ := C01 m nd rng rng' core sec
    (fun i => match nd.aggregator.participants.get i with | some q => q.pkSig | none => 0)
    (fun i q hq => by simp [hq]) h
  have key : ∀ i < nd.aggregator.config.numParticipants, ∀ q, nd.aggregator.participants.get i = some q →
      ∀ sk : ZMod r, sk ≠ 0 → q.pkSig = sk • nd.aggregator.config.srs.g1 →
        (DecryptedShare.generate core.encs sk i : Res ε _) =
          .ok ⟨p.eval (Spec.point r i) • nd.aggregator.config.srs.g1, i⟩ := by
    intro i hi q hq sk hsk hpk
    exact decrypt_shares hs hi hsk (by simp [hq, hpk])
  have hid : nd.dealer.participant.id < nd.aggregator.config.numParticipants := by
    rw [sharePvss_eq, Res.bind_eq_ok] at h
    obtain ⟨x, -, h⟩ := h
    exact ((shareRest_ok_iff m nd _ _).1 ⟨_, h⟩).1
  refine ⟨p, hs.degree, h0.symm, key, fun q hq sk hsk hpk => ?_⟩
  rw [key _ hid q hq sk hsk hpk, hmy]

/-! ### C09 -/

/-- The decryptions made by the parties `ids` (in this order), each with its own key. -/
def Spec.Decrypted (encs : List G1) (sk : ℕ → ZMod r) (ids : List ℕ) (ds : List (DecryptedShare G1)) : Prop :=
  List.Forall₂ (fun i d => d.origin = i ∧ encs[i]? = some (sk i • d.dec)) ids ds

/-- A selection of parties is admissible: distinct, all below `n`, more than `t`. -/
structure Spec.Selection (n t : ℕ) (ids : List ℕ) : Prop where
  nodup : ids.Nodup
  lt : ∀ i ∈ ids, i < n
  enough : t + 1 ≤ ids.length
  small : ids.length < 2 ^ 64

theorem nodup_points {n : ℕ} (hn : n ≤ r) {ids : List ℕ} (hnd : ids.Nodup) (hlt : ∀ i ∈ ids, i < n) :
    (ids.map (Spec.point r)).Nodup := by
  refine (List.nodup_map_iff_inj_on hnd).2 fun a ha b hb hab => ?_
  exact node_injOn hn (by simpa using hlt a ha) (by simpa using hlt b hb) hab

section
variable {g2 : G2} {n t : ℕ} {pk : ℕ → G1} {core : PVSSCore G1 G2} {p : (ZMod r)[X]}

theorem decrypted_eq (hs : Spec.Shares g2 n t pk core p) {g1 : G1} {sk : ℕ → ZMod r} {ids : List ℕ}
    {ds : List (DecryptedShare G1)} (hlt : ∀ i ∈ ids, i < n) (hsk : ∀ i ∈ ids, sk i ≠ 0 ∧ pk i = sk i • g1)
    (hd : Spec.Decrypted core.encs sk ids ds) :
    ds = ids.map fun i => ⟨p.eval (Spec.point r i) • g1, i⟩ := by
  unfold Spec.Decrypted at hd
  induction hd with
  | nil => rfl
  | cons hab _ ih =>
    rename_i i d ids' ds' _
    rw [List.map_cons]
    congr 1
    · have h1 := decrypt_shares (ε := PVSSError) hs (hlt i (by simp)) (hsk i (by simp)).1 (hsk i (by simp)).2
      have h2 := ((C05 (ε := PVSSError) core.encs (sk i) i).2.1 d).2 ⟨(hsk i (by simp)).1, hab.1, hab.2⟩
      rw [h1] at h2
      exact (Res.ok.inj h2).symm
    · exact ih (fun j hj => hlt j (by simp [hj])) (fun j hj => hsk j (by simp [hj]))

/-- Any admissible selection reconstructs `p(0) • g1`. -/
theorem reconstruct_g1 (m : Mode) (hs : Spec.Shares g2 n t pk core p) {g1 : G1} {sk : ℕ → ZMod r} {ids : List ℕ}
    {ds : List (DecryptedShare G1)} (hn : n ≤ r) (hsel : Spec.Selection n t ids)
    (hsk : ∀ i ∈ ids, sk i ≠ 0 ∧ pk i = sk i • g1) (hd : Spec.Decrypted core.encs sk ids ds) :
    lagrangeG1 m (ds.map (·.dec)) (ds.map fun d => Spec.point r d.origin) t = .ok (p.eval 0 • g1) := by
  rw [decrypted_eq hs hsel.lt hsk hd]
  simp only [List.map_map, Function.comp_def]
  refine C06_g1 m p t hs.degree g1 _ _ (by simp) (by simpa using hsel.enough) (by simpa using hsel.small) ?_ ?_
  · exact (nodup_points hn hsel.nodup hsel.lt).sublist (List.take_sublist _ _)
  · intro j hj _
    simp

end

section
variable [CommMonoid K]
variable {g2 : G2} {n t : ℕ} {pk : ℕ → G1} {core : PVSSCore G1 G2} {p : (ZMod r)[X]}

theorem reconstruct_gt (m : Mode) (S : Suite r G1 G2 K) (hS : PairLaws S) (hs : Spec.Shares g2 n t pk core p)
    {g1 : G1} {sk : ℕ → ZMod r} {ids : List ℕ} {ds : List (DecryptedShare G1)} (hn : n ≤ r)
    (hsel : Spec.Selection n t ids) (hsk : ∀ i ∈ ids, sk i ≠ 0 ∧ pk i = sk i • g1)
    (hd : Spec.Decrypted core.encs sk ids ds) (epoch : G2) :
    lagrangeGt (r := r) m (ds.map fun d => S.pair d.dec epoch) (ds.map fun d => d.origin + 1) t =
      .ok (S.pair (p.eval 0 • g1) epoch) := by
  rw [decrypted_eq hs hsel.lt hsk hd]
  simp only [List.map_map, Function.comp_def]
  refine C07 m S hS p t hs.degree g1 epoch _ _ (by simp) (by simpa using hsel.enough) (by simpa using hsel.small) ?_ ?_
  · rw [← List.map_take, List.map_map]
    exact (nodup_points hn hsel.nodup hsel.lt).sublist
      ((List.take_sublist _ _).map (Spec.point r))
  · intro j hj _
    simp [Spec.point]

/-- **C09**. Decrypted shares of one transcript: every two admissible selections of parties, of whatever order and size,
reconstruct the same value, in G1 and, after pairing with any epoch generator, in GT. -/
theorem C09 (m : Mode) (S : Suite r G1 G2 K) (hS : PairLaws S) (hs : Spec.Shares g2 n t pk core p) (hn : n ≤ r)
    (g1 : G1) (sk : ℕ → ZMod r) (hsk : ∀ i < n, sk i ≠ 0 ∧ pk i = sk i • g1)
    (ids ids' : List ℕ) (ds ds' : List (DecryptedShare G1)) (hsel : Spec.Selection n t ids)
    (hsel' : Spec.Selection n t ids') (hd : Spec.Decrypted core.encs sk ids ds)
    (hd' : Spec.Decrypted core.encs sk ids' ds') (epoch : G2) :
    (∃ v, lagrangeG1 m (ds.map (·.dec)) (ds.map fun d => Spec.point r d.origin) t = .ok v ∧
      lagrangeG1 m (ds'.map (·.dec)) (ds'.map fun d => Spec.point r d.origin) t = .ok v) ∧
    (∃ v, lagrangeGt (r := r) m (ds.map fun d => S.pair d.dec epoch) (ds.map fun d => d.origin + 1) t = .ok v ∧
      lagrangeGt (r := r) m (ds'.map fun d => S.pair d.dec epoch) (ds'.map fun d => d.origin + 1) t = .ok v) :=
  ⟨⟨_, reconstruct_g1 m hs hn hsel (fun i hi => hsk i (hsel.lt i hi)) hd,
      reconstruct_g1 m hs hn hsel' (fun i hi => hsk i (hsel'.lt i hi)) hd'⟩,
   ⟨_, reconstruct_gt m S hS hs hn hsel (fun i hi => hsk i (hsel.lt i hi)) hd epoch,
      reconstruct_gt m S hS hs hn hsel' (fun i hi => hsk i (hsel'.lt i hi)) hd' epoch⟩⟩

/-- **C09** (codewords). The same in G1 for any transcript whose decrypted values form a codeword, also when no scalar
polynomial is known: the decryptions `v_i` of the parties agree with a group-valued polynomial of degree at most `t`. -/
theorem C09_codeword (m : Mode) (v : List G1) (hv : Spec.Codeword r t v) (hn : v.length ≤ r)
    (ids ids' : List ℕ) (hsel : Spec.Selection v.length t ids) (hsel' : Spec.Selection v.length t ids')
    (ds ds' : List G1) (hd : List.Forall₂ (fun i d => v[i]? = some d) ids ds)
    (hd' : List.Forall₂ (fun i d => v[i]? = some d) ids' ds') :
    ∃ s, lagrangeG1 m ds (ids.map (Spec.point r)) t = .ok s ∧ lagrangeG1 m ds' (ids'.map (Spec.point r)) t = .ok s := by
  obtain ⟨A, hA⟩ := hv
  have key : ∀ (ids : List ℕ) (ds : List G1), Spec.Selection v.length t ids →
      List.Forall₂ (fun i d => v[i]? = some d) ids ds →
      lagrangeG1 m ds (ids.map (Spec.point r)) t = .ok (A 0) := by
    intro ids ds hsel hd
    have hlen : ids.length = ds.length := hd.length_eq
    have hinj := injOn_getD_of_nodup (0 : ZMod r) (l := ids.map (Spec.point r)) (k := t + 1)
      (by simpa using hsel.enough)
      ((nodup_points hn hsel.nodup hsel.lt).sublist (List.take_sublist _ _))
    rw [lagrangeG1_eq m ds _ (by rw [← hlen]; exact hsel.enough) (by simp [hlen]) hinj (by
      have := hsel.small; have := hsel.enough; omega)]
    congr 1
    apply recon_exact hinj
    intro j hj
    have hj1 : j < ids.length := by have := hsel.enough; omega
    have hj2 : j < ds.length := by omega
    rw [getD_lt 0 hj2, getD_lt _ (by simpa using hj1)]
    have := (List.forall₂_iff_get.1 hd).2 j hj1 hj2
    simp only [List.get_eq_getElem] at this
    obtain ⟨h1, h2⟩ := List.getElem?_eq_some_iff.1 this
    rw [← h2, hA _ h1]
    simp [evalM]
  exact ⟨A 0, key ids ds hsel hd, key ids' ds' hsel' hd'⟩

/-! ### C60 -/

/-- The public check of a decrypted share against the commitment of its party, with mask `ρ` (tests of node.rs:435-461). -/
def Spec.DecCheck (S : Suite r G1 G2 K) (g1 : G1) (g2 : G2) (ρ : ZMod r) (c : G2) (d : G1) : Prop :=
  S.pair (-g1) c * S.pair g1 (ρ • g2) * S.pair (d - ρ • g1) g2 = 1

theorem decCheck_iff {S : Suite r G1 G2 K} (hS : PairLaws S) (g1 : G1) (g2 : G2) (ρ : ZMod r) (c : G2) (d : G1) :
    Spec.DecCheck S g1 g2 ρ c d ↔ S.pair d g2 = S.pair g1 c := by
  unfold Spec.DecCheck
  rw [mul_assoc, ← hS.smul_comm, ← hS.add_left, add_sub_cancel, mul_comm, hS.mul_neg_eq_one_iff]

/-- **C60**. If the encryption of party `i` is correct (pairing equation) and `dec` is the decryption with the key behind
`pk = sk • g1`, then `e(dec, g2) = e(g1, comm_i)` and the masked product is one for every mask. Conversely, for `g2 ≠ 0`
any `d` passing the check for some mask is `dec`. -/
theorem C60 (S : Suite r G1 G2 K) (hS : PairLaws S) (g1 : G1) (g2 : G2) (sk : ZMod r) (core : PVSSCore G1 G2) (i : ℕ)
    (hok : Spec.EncOk S g2 (sk • g1) core i) (dec : DecryptedShare G1)
    (hdec : (DecryptedShare.generate core.encs sk i : Res PVSSError _) = .ok dec) :
    ∃ c, core.comms[i]? = some c ∧ S.pair dec.dec g2 = S.pair g1 c ∧
      (∀ ρ, Spec.DecCheck S g1 g2 ρ c dec.dec) ∧
      (g2 ≠ 0 → ∀ ρ d, Spec.DecCheck S g1 g2 ρ c d → d = dec.dec) := by
  obtain ⟨e, c, he, hc, hp⟩ := hok
  obtain ⟨hsk, -, hdec⟩ := ((C05 core.encs sk i).2.1 dec).1 hdec
  rw [he] at hdec
  obtain rfl := Option.some.inj hdec
  have hmain : S.pair dec.dec g2 = S.pair g1 c := by
    have h1 : S.pair dec.dec (sk • g2) = S.pair g1 (sk • c) := by rw [← hS.smul_comm, ← hS.smul_comm, hp]
    have h2 : S.pair (sk⁻¹ • dec.dec) (sk • g2) = S.pair (sk⁻¹ • g1) (sk • c) := by
      rw [← mulRepr_eq_smul dec.dec, ← mulRepr_eq_smul g1, mulRepr, mulRepr, hS.nsmul_left, hS.nsmul_left, h1]
    rwa [hS.smul_comm, hS.smul_comm, smul_smul, smul_smul, inv_mul_cancel₀ hsk, one_smul, one_smul] at h2
  refine ⟨c, hc, hmain, fun ρ => (decCheck_iff hS _ _ _ _ _).2 hmain, fun hg ρ d hd => ?_⟩
  rw [decCheck_iff hS, ← hmain] at hd
  exact hS.left_inj hg hd

end

/-! ### concrete cases -/

namespace Toy

/-- Participant with encryption key `sk • 1`. -/
def participant (id : ℕ) (sk : ZMod 13) : Participant (ZMod 13) := ⟨id, sk, ⟨pad32 [UInt8.ofNat id]⟩⟩

/-- Secret keys 2, 3, 4, 5. -/
def sk (i : ℕ) : ZMod 13 := (i + 2 : ℕ)

/-- Four parties, generators 1, 1, degree 1. -/
def cfg : Config (ZMod 13) (ZMod 13) := ⟨⟨1, 1, 2⟩, 1, 4⟩

def parties : BMap (Participant (ZMod 13)) := BMap.ofList ((List.range 4).map fun i => (i, participant i (sk i)))

/-- Dealer with id `i`. -/
def dealer (i : ℕ) : Dealer 13 (ZMod 13) := ⟨sk i, ⟨Bytes.append32 (pad32 [UInt8.ofNat i]) (pad32 [UInt8.ofNat i])⟩, participant i (sk i)⟩

def node (i : ℕ) : Node 13 (ZMod 13) (ZMod 13) := Node.new cfg (dealer i) parties

/-- Random stream 5, 2, 0, 0, … -/
def rng52 : Rng 13 := fun i => if i = 0 then 5 else if i = 1 then 2 else 0

/-- The sharing of `5 + 2X` by party 2. -/
def core52 : PVSSCore (ZMod 13) (ZMod 13) := ⟨[14, 27, 44, 65], [7, 9, 11, 13]⟩

end Toy

/-- Non-vacuity of C01, C02, C04: a run of `share_pvss` that succeeds with `p = 5 + 2X`. -/
example : ∃ rng', (Toy.node 2).sharePvss .checked Toy.rng52 = .ok ((Toy.core52, ⟨5, 11⟩), rng') := by
  obtain ⟨x, hx⟩ := ((C02 .checked (Toy.node 2) Toy.rng52 (by decide)).1).2
    ⟨by decide, by decide, by decide, 0, by decide, by decide⟩
  refine ⟨x.2, ?_⟩
  rw [hx]
  have h1 := hx
  rw [sharePvss_eq, polyRand_ok _ _ (by decide), Res.bind_ok'] at h1
  have ht : trim ((List.range (1 + 1)).map Toy.rng52) = [5, 2] := by decide
  simp only [Toy.node, Node.new, Aggregator.new, Toy.cfg, ht] at h1
  have h2 : shareRest .checked (Toy.node 2) [5, 2] (Toy.rng52.drop 2) =
      .ok ((Toy.core52, ⟨5, 11⟩), Toy.rng52.drop 2) := by rfl
  have h3 : Res.ok x = (Res.ok ((Toy.core52, ⟨5, 11⟩), Toy.rng52.drop 2) : Res PVSSError _) := by
    rw [← h1]; exact h2
  rw [Res.ok.inj h3]

/-- Non-vacuity of C02: the error and the panic cases occur (missing party; all-zero sample). -/
example : (Node.new Toy.cfg (Toy.dealer 2) (BMap.ofList [(0, Toy.participant 0 2), (2, Toy.participant 2 4)])
      : Node 13 (ZMod 13) (ZMod 13)).sharePvss .checked Toy.rng52 = .err (.InvalidParticipantId 1) ∧
    (Toy.node 2).sharePvss .checked (fun _ => 0) = .panic := by
  refine ⟨((C02 .checked _ Toy.rng52 (by decide)).2.1 _).2 ⟨1, by decide, by decide, by decide, rfl⟩,
    ((C02 .checked (Toy.node 2) (fun _ => 0) (by decide)).2.2).2 (Or.inr ⟨by decide, Or.inr fun k _ => rfl⟩)⟩

/-- C02 (allocation limit): degree `2^60`; and degree `2^64 - 1` with a missing participant in a wrapping build. -/
example : (Node.new { Toy.cfg with degree := 2 ^ 60 } (Toy.dealer 2) Toy.parties
      : Node 13 (ZMod 13) (ZMod 13)).sharePvss .checked Toy.rng52 = .panic ∧
    (Node.new { Toy.cfg with degree := 2 ^ 64 - 1 } (Toy.dealer 2) (BMap.ofList [(0, Toy.participant 0 2)])
      : Node 13 (ZMod 13) (ZMod 13)).sharePvss .wrapping Toy.rng52 = .err (.InvalidParticipantId 1) :=
  ⟨(C02_large .checked (Node.new { Toy.cfg with degree := 2 ^ 60 } (Toy.dealer 2) Toy.parties) Toy.rng52
      (by decide) (by decide)).1 (by simp),
    ((C02_large .wrapping (Node.new { Toy.cfg with degree := 2 ^ 64 - 1 } (Toy.dealer 2)
      (BMap.ofList [(0, Toy.participant 0 2)])) Toy.rng52 (by decide) (by decide)).2 rfl rfl).1 1 (by decide) (by decide)
      (by decide)⟩

/-- The sharing of the concrete case. -/
theorem Toy.shares52 : Spec.Shares (r := 13) (1 : ZMod 13) 4 1 (fun i => Toy.sk i) Toy.core52 (C 5 + C 2 * X) := by
  refine ⟨by compute_degree, rfl, rfl, ?_, ?_⟩
  · intro i hi
    match i, hi with
    | 0, _ => simp [Spec.point]; decide +revert
    | 1, _ => simp [Spec.point]; decide +revert
    | 2, _ => simp [Spec.point]; decide +revert
    | 3, _ => simp [Spec.point]; decide +revert
  · intro i hi
    match i, hi with
    | 0, _ => simp [Spec.point, Toy.sk]; decide +revert
    | 1, _ => simp [Spec.point, Toy.sk]; decide +revert
    | 2, _ => simp [Spec.point, Toy.sk]; decide +revert
    | 3, _ => simp [Spec.point, Toy.sk]; decide +revert

/-- Non-vacuity of C09: parties (3, 0) and parties (1, 2, 0) obtain the same value. -/
example : ∃ v, lagrangeG1 (r := 13) .checked [(13 : ZMod 13), 7] [4, 1] 1 = .ok v ∧
    lagrangeG1 (r := 13) .checked [(9 : ZMod 13), 11, 7] [2, 3, 1] 1 = .ok v := by
  have h := (C09 (r := 13) .checked (Toy.suite 13) (Toy.pairLaws 13) Toy.shares52 (by decide) (1 : ZMod 13) Toy.sk
    (by decide) [3, 0] [1, 2, 0] [⟨13, 3⟩, ⟨7, 0⟩] [⟨9, 1⟩, ⟨11, 2⟩, ⟨7, 0⟩]
    ⟨by decide, by decide, by decide, by decide⟩ ⟨by decide, by decide, by decide, by decide⟩
    (.cons (by decide) (.cons (by decide) .nil))
    (.cons (by decide) (.cons (by decide) (.cons (by decide) .nil))) (3 : ZMod 13)).1
  obtain ⟨v, h1, h2⟩ := h
  exact ⟨v, h1, h2⟩

/-- Non-vacuity of C60: party 2 (key 4) of the concrete sharing; its decryption is 11. -/
example : Spec.EncOk (Toy.suite 13) (1 : ZMod 13) ((4 : ZMod 13) • (1 : ZMod 13)) Toy.core52 2 ∧
    (DecryptedShare.generate Toy.core52.encs (4 : ZMod 13) 2 : Res PVSSError _) = .ok ⟨11, 2⟩ :=
  ⟨⟨44, 11, rfl, rfl, by decide⟩, ((C05 Toy.core52.encs (4 : ZMod 13) 2).2.1 ⟨11, 2⟩).2 (by decide)⟩

end Verif
