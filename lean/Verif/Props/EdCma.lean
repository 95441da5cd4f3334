import Verif.Lemmas.Cma
import Verif.Props.EdForge
import Verif.Lemmas.EdPrime
import Verif.Model.Default

/-!
# EdDSA signatures against chosen-message attacks: C110

SHA-512 is a table of uniform 64-byte strings on a finite set `D` of inputs; it maps the seed to a scalar half `low` and a uniform
prefix half `p`.  In each of `k` steps a forger looks up a hash or asks for a signature, choosing the step from the earlier replies.
It outputs a digest and a signature, and wins if `verify` accepts and it never asked for a signature on this digest.
-/

namespace Verif

set_option linter.unusedSectionVars false

open Finset EdCurve

variable {E : Type} [AddCommGroup E] [DecidableEq E] {C : EdCurve E}
  (zs : List (List UInt8) → List (Bytes 64) → List (Bytes 32) → ℕ → ℕ)

/-- A forger that may ask for signatures. -/
abbrev Spec.EdAttacker (D : Finset (List UInt8)) : Type := Spec.Attacker D (Bytes 64) Digest Signature

/-- The signer: `Signature::new`. -/
def Spec.edSigner (ed : EdOps) (sk : SecretKey) (d : Digest) : Signature :=
  match (Signature.new ed d sk : Res CryptoError Signature) with
  | .ok s => s
  | _ => Signature.default

/-- A made-up signature: the response `s` and the challenge `c` determine its first half. -/
def Spec.edFake (C : EdCurve E) (P : E) (s : ZMod edL) (c : Bytes 64) : Signature :=
  ⟨C.compress (s.val • C.base - wide c • P), ⟨Codec.leBytes 32 s.val, Codec.length_leBytes _ _⟩⟩

/-- The inputs that signer and verifier of a key hash. -/
structure Spec.EdDomain (D : Finset (List UInt8)) (pk : PublicKey) : Prop where
  nonce : ∀ (p : Bytes 32) (d : Digest), p.1 ++ d.bytes.1 ∈ D
  challenge : ∀ o : Digest × Signature, Spec.edInput pk o ∈ D

variable {D : Finset (List UInt8)} {pk : PublicKey}

/-- The input hashed for a made-up signature. -/
def Spec.edFakePt (C : EdCurve E) (P : E) (hD : Spec.EdDomain D pk) (d : Digest) (s : ZMod edL) (c : Bytes 64) : D :=
  ⟨Spec.edInput pk (d, Spec.edFake C P s c), hD.challenge _⟩

/-- The replies of the simulation, which knows the point `P` of the public key only. -/
noncomputable def Spec.edSim (C : EdCurve E) (P : E) (hD : Spec.EdDomain D pk) (A : Spec.EdAttacker D) (x0 : D) {k : ℕ} (s : Fin k → ZMod edL)
    (c : Fin k → Bytes 64) (f : D → Bytes 64) : List (Bytes 64 ⊕ Signature) :=
  A.expand (Spec.cmaRun (A.once x0) (Spec.edFakePt C P hD) (fun _ s c => Spec.edFake C P s c) x0 (Spec.pad s) (Spec.pad c) f k)

/-- `verify` depends on one hash value. -/
theorem verify_congr {sha sha' : List UInt8 → Bytes 64} {o : Digest × Signature} (h : sha (Spec.edInput pk o) = sha' (Spec.edInput pk o)) :
    Signature.verify ((Spec.withSha C sha).ops zs) o.2 o.1 pk = .ok () →
    Signature.verify ((Spec.withSha C sha').ops zs) o.2 o.1 pk = .ok () := by
  rw [C97_verify, C97_verify]
  rintro ⟨R, A, h1, h2, h3, h4, h5, h6⟩
  refine ⟨R, A, h1, h2, h3, h4, h5, ?_⟩
  have h6 : Codec.leVal o.2.part2.1 • C.base = R + wide (sha (Spec.edInput pk o)) • A := h6
  rw [h] at h6
  exact h6

theorem bytes_length {n : ℕ} (b : Bytes n) : b.1.length = n := b.2

/-- The signature with nonce hash `n` and challenge hash `c`. -/
def edSig (C : EdCurve E) (a : ℕ) (n c : Bytes 64) : Signature :=
  ⟨C.compress (wide n • C.base), ⟨Codec.leBytes 32 ((wide c * a + wide n) % edL), Codec.length_leBytes _ _⟩⟩

/-- What the signer hashes. -/
def edPt (C : EdCurve E) (hD : Spec.EdDomain D pk) (d : Digest) (n : Bytes 64) : D :=
  ⟨Spec.edInput pk (d, edSig C 0 n n), hD.challenge _⟩

/-- The point of the nonce. -/
def edNp (hD : Spec.EdDomain D pk) (p : Bytes 32) (d : Digest) : D := ⟨p.1 ++ d.bytes.1, hD.nonce p d⟩

theorem edSigner_eq (seed low p : Bytes 32) (sha : List UInt8 → Bytes 64) (hseed : sha seed.1 = Bytes.append32 low p)
    (hC : C.Laws) (f : D → Bytes 64) (hsha : ∀ x : D, sha x.1 = f x)
    (hpk : pk = (generateKeypair ((Spec.withSha C sha).ops zs) seed).1) (hD : Spec.EdDomain D pk) (i : ℕ) (d : Digest) :
    Spec.edSigner ((Spec.withSha C sha).ops zs) (generateKeypair ((Spec.withSha C sha).ops zs) seed).2 d =
      Spec.byHash (edPt C hD) (fun _ n c => edSig C (clamp (Codec.leVal low.1)) n c) (edNp hD p) f i d := by
  have hC' : (Spec.withSha C sha).Laws := ⟨hC.order, hC.base_ne, hC.round⟩
  set C' := Spec.withSha C sha with hC'd
  have hsc : C'.scalarOf seed.1 = clamp (Codec.leVal low.1) := by
    show clamp (Codec.leVal ((sha seed.1).1.take 32)) = _
    rw [hseed]
    congr 2
    exact congrArg Subtype.val (fst32_append low p)
  have hn : C'.nonce seed.1 d.bytes.1 = wide (f (edNp hD p d)) := by
    show wide (sha ((sha seed.1).1.drop 32 ++ d.bytes.1)) = _
    rw [hseed, show (Bytes.append32 low p).1.drop 32 = p.1 from congrArg Subtype.val (snd32_append low p)]
    rw [← hsha]
    rfl
  have hpk1 : pk.bytes = C'.compress (C'.scalarOf seed.1 • C'.base) := by rw [hpk]; rfl
  have hok : (C'.ops zs).keypairOk (Bytes.append32 seed pk.bytes) = true := by
    show (C'.decompress (snd32 (Bytes.append32 seed pk.bytes))).isSome = true
    rw [snd32_append, hpk1, hC'.round]
    rfl
  have hsk : (generateKeypair (C'.ops zs) seed).2 = ⟨Bytes.append32 seed pk.bytes⟩ := by rw [hpk]; rfl
  obtain ⟨sig, h1, h2⟩ := (C58_split (ε := CryptoError) (C'.ops zs) ⟨Bytes.append32 seed pk.bytes⟩ d).1 hok
  obtain ⟨h3, h4⟩ := new_ok zs h1
  have hsig : Spec.edSigner (C'.ops zs) (generateKeypair (C'.ops zs) seed).2 d = sig := by
    rw [Spec.edSigner, hsk, h1]
  rw [hsig, Spec.byHash]
  have hR : sig.part1 = C.compress (wide (f (edNp hD p d)) • C.base) := by rw [h3, hn]; rfl
  have hch : C'.challenge sig.part1.1 pk.bytes.1 d.bytes.1 = wide (f (edPt C hD d (f (edNp hD p d)))) := by
    show wide (sha (sig.part1.1 ++ (pk.bytes.1 ++ d.bytes.1))) = _
    rw [hR, ← hsha (edPt C hD d _)]
    rfl
  rw [hch, hsc, hn] at h4
  have hs2 : sig.part2 = ⟨Codec.leBytes 32 ((wide (f (edPt C hD d (f (edNp hD p d)))) * clamp (Codec.leVal low.1) + wide (f (edNp hD p d))) % edL),
      Codec.length_leBytes _ _⟩ := by
    apply Subtype.ext
    have e := Codec.leBytes_leVal sig.part2.1
    rw [sig.part2.2, h4] at e
    exact e.symm
  cases sig
  simp only at hR hs2
  rw [hR, hs2]
  rfl

theorem gen_pk (seed low p : Bytes 32) (sha : List UInt8 → Bytes 64) (hseed : sha seed.1 = Bytes.append32 low p) :
    (generateKeypair ((Spec.withSha C sha).ops zs) seed).1 = ⟨C.compress (clamp (Codec.leVal low.1) • C.base)⟩ := by
  have hsc : (Spec.withSha C sha).scalarOf seed.1 = clamp (Codec.leVal low.1) := by
    show clamp (Codec.leVal ((sha seed.1).1.take 32)) = _
    rw [hseed]
    congr 2
    exact congrArg Subtype.val (fst32_append low p)
  have h1 : (generateKeypair ((Spec.withSha C sha).ops zs) seed).1 =
    ⟨(Spec.withSha C sha).compress ((Spec.withSha C sha).scalarOf seed.1 • (Spec.withSha C sha).base)⟩ := rfl
  rw [h1, hsc]
  rfl

theorem mkSig_congr (C : EdCurve E) {P P' : E} {s s' : ℕ} (h : P = P') (h' : s = s') :
    (⟨C.compress P, ⟨Codec.leBytes 32 s, Codec.length_leBytes _ _⟩⟩ : Signature) =
      ⟨C.compress P', ⟨Codec.leBytes 32 s', Codec.length_leBytes _ _⟩⟩ := by
  subst h h'
  rfl

theorem card_filter_imp {α : Type} [Fintype α] {p q : α → Prop} [DecidablePred p] [DecidablePred q] (h : ∀ x, p x → q x) :
    (univ.filter p).card ≤ (univ.filter q).card :=
  card_le_card fun _ hx => mem_filter.2 ⟨mem_univ _, h _ (mem_filter.1 hx).2⟩

theorem cma_arith {V P F Q k r r' r1 t t' : ℕ} (hn : r' * V ^ k ≤ P * r1 + k * (F * V ^ k))
    (hs : V * (r1 * V ^ k) ≤ V * (Q ^ k * t) + k ^ 2 * Q * (F * V ^ k * V ^ k)) (hR : r ≤ r') (hT : t ≤ t') :
    V * (r * V ^ k * V ^ k) ≤ P * (V * (Q ^ k * t') + k ^ 2 * Q * (F * V ^ k * V ^ k)) + V * (k * (F * V ^ k) * V ^ k) :=
  calc V * (r * V ^ k * V ^ k) ≤ V * (r' * V ^ k * V ^ k) := by gcongr
    _ ≤ V * ((P * r1 + k * (F * V ^ k)) * V ^ k) := by gcongr
    _ = P * (V * (r1 * V ^ k)) + V * (k * (F * V ^ k) * V ^ k) := by ring
    _ ≤ P * (V * (Q ^ k * t) + k ^ 2 * Q * (F * V ^ k * V ^ k)) + V * (k * (F * V ^ k) * V ^ k) := by gcongr
    _ ≤ _ := by gcongr

theorem edFake_eq (hC : C.Laws) (a : ℕ) (n c : Bytes 64) :
    Spec.edFake C (a • C.base) ((Codec.leVal n.1 : ZMod edL) + wide c * a) c = edSig C a n c := by
  have hv : ((Codec.leVal n.1 : ZMod edL) + wide c * a).val = (wide c * a + wide n) % edL := by
    rw [← Nat.cast_mul, ← Nat.cast_add, ZMod.val_natCast, show wide n = Codec.leVal n.1 % edL from rfl, Nat.add_mod_mod, add_comm]
  refine mkSig_congr C ?_ hv
  rw [hv, hC.mod_smul, add_smul, mul_smul, add_sub_cancel_left]

theorem edPt_wide (hC : C.Laws) (hD : Spec.EdDomain D pk) {d d' : Digest} {n n' : Bytes 64} (h : edPt C hD d n = edPt C hD d' n') :
    d = d' ∧ wide n = wide n' := by
  have h := Subtype.mk.inj h
  have h1 : C.compress (wide n • C.base) = C.compress (wide n' • C.base) :=
    Subtype.ext (List.append_inj_left h (by rw [bytes_length, bytes_length]))
  have h2 := List.append_inj_right (List.append_inj_right h (by rw [bytes_length, bytes_length])) rfl
  refine ⟨?_, ?_⟩
  · cases d; cases d'
    simp only at h2
    rw [Subtype.ext h2]
  · have := (hC.round _).symm.trans ((congrArg _ h1).trans (hC.round _))
    exact hC.smul_inj (wide_lt _) (wide_lt _) (Option.some.inj this)

theorem edPt_ne (hD : Spec.EdDomain D pk) (p : Bytes 32) (d d' : Digest) (n : Bytes 64) : edPt C hD d n ≠ edNp hD p d' := by
  intro h
  have h := congrArg List.length (Subtype.mk.inj h)
  simp only [Spec.edInput, List.length_append, bytes_length] at h
  omega

theorem edNp_inj (hD : Spec.EdDomain D pk) {p p' : Bytes 32} {d d' : Digest} (h : edNp hD p d = edNp hD p' d') : p = p' ∧ d = d' := by
  have h := Subtype.mk.inj h
  refine ⟨Subtype.ext (List.append_inj_left h (by rw [bytes_length, bytes_length])), ?_⟩
  have := List.append_inj_right h (by rw [bytes_length, bytes_length])
  cases d; cases d'
  simp only at this
  rw [Subtype.ext this]

/-- Number of nonce hashes per residue. -/
abbrev Spec.edQuot : ℕ := 256 ^ 64 / edL + 1

open Classical in
/-- C110 in numbers of tables, prefixes and draws. -/
theorem ed_cma (hC : C.Laws) (seed low : Bytes 32) (sha : Bytes 32 → (D → Bytes 64) → List UInt8 → Bytes 64)
    (hsha : ∀ p f (x : D), sha p f x.1 = f x) (hseed : ∀ p f, sha p f seed.1 = Bytes.append32 low p)
    (hpk : pk.bytes = C.compress (clamp (Codec.leVal low.1) • C.base)) (hD : Spec.EdDomain D pk)
    (k : ℕ) (A : Spec.EdAttacker D) (out : List (Bytes 64 ⊕ Signature) → Digest × Signature) (p₀ : Bytes 32) (x0 : D) :
    let ed : Bytes 32 → (D → Bytes 64) → EdOps := fun p f => (Spec.withSha C (sha p f)).ops zs
    let replies : Bytes 32 → (D → Bytes 64) → List (Bytes 64 ⊕ Signature) := fun p f =>
      A.play f (fun _ => Spec.edSigner (ed p f) (generateKeypair (ed p f) seed).2) k
    let R := univ.filter fun q : Bytes 32 × (D → Bytes 64) =>
      ¬ A.Asked (replies q.1 q.2) (out (replies q.1 q.2)).1 ∧
      Signature.verify (ed q.1 q.2) (out (replies q.1 q.2)).2 (out (replies q.1 q.2)).1 (generateKeypair (ed q.1 q.2) seed).1 = .ok ()
    let run : ((Fin k → ZMod edL) × (Fin k → Bytes 64)) → (D → Bytes 64) → Digest × Signature := fun q f =>
      out (Spec.edSim C (clamp (Codec.leVal low.1) • C.base) hD A x0 q.1 q.2 f)
    let T := univ.filter fun q : ((Fin k → ZMod edL) × (Fin k → Bytes 64)) × (D → Bytes 64) =>
      Signature.verify (ed p₀ q.2) (run q.1 q.2).2 (run q.1 q.2).1 pk = .ok ()
    256 ^ 64 * (R.card * (256 ^ 64) ^ k * (256 ^ 64) ^ k) ≤
      256 ^ 32 * (256 ^ 64 * (Spec.edQuot ^ k * T.card) +
        k ^ 2 * Spec.edQuot * (Fintype.card (D → Bytes 64) * (256 ^ 64) ^ k * (256 ^ 64) ^ k)) +
      256 ^ 64 * (k * (Fintype.card (D → Bytes 64) * (256 ^ 64) ^ k) * (256 ^ 64) ^ k) := by
  intro ed replies R run T
  set a := clamp (Codec.leVal low.1) with ha
  set A1 := A.once x0 with hA1
  have hA : A1.NoRepeat := once_noRepeat A x0
  obtain ⟨win, hwin⟩ : ∃ w : (D → Bytes 64) → List (Bytes 64 ⊕ Signature) → Prop, ∀ f l, w f l ↔
      ¬ A1.Asked l (out (A.expand l)).1 ∧ Signature.verify (ed p₀ f) (out (A.expand l)).2 (out (A.expand l)).1 pk = .ok () :=
    ⟨_, fun _ _ => Iff.rfl⟩
  have hgen : ∀ p f, pk = (generateKeypair (ed p f) seed).1 := by
    intro p f
    rw [gen_pk zs seed low p (sha p f) (hseed p f)]
    cases pk
    simp only at hpk
    rw [hpk]
  have hver : ∀ p f f' o, f ⟨_, hD.challenge o⟩ = f' ⟨_, hD.challenge o⟩ → Signature.verify (ed p f) o.2 o.1 pk = .ok () →
      Signature.verify (ed p₀ f') o.2 o.1 pk = .ok () := by
    intro p f f' o h
    refine verify_congr zs ?_
    have h1 := hsha p f ⟨_, hD.challenge o⟩
    have h2 := hsha p₀ f' ⟨_, hD.challenge o⟩
    exact h1.trans (h.trans h2.symm)
  have hplay : ∀ p f, replies p f = A.expand (A1.play f (Spec.byHash (edPt C hD) (fun _ n c => edSig C a n c) (edNp hD p) f) k) := by
    intro p f
    have h1 : (fun _ => Spec.edSigner (ed p f) (generateKeypair (ed p f) seed).2) =
        Spec.byHash (edPt C hD) (fun _ n c => edSig C a n c) (edNp hD p) f := by
      funext i d
      exact edSigner_eq zs seed low p (sha p f) (hseed p f) hC f (hsha p f) (hgen p f) hD i d
    rw [← h1, play_once]
  have hn := cma_nonce (A := A1) (edPt C hD) (fun _ n c => edSig C a n c) hA (edNp hD)
    (fun p d d' h => (edNp_inj hD h).2) (fun p m m' v => edPt_ne hD p m m' v) (fun p p' m m' h => (edNp_inj hD h).1) win
    (fun p f f' l h hw => (hwin _ _).2 ⟨((hwin _ _).1 hw).1, hver _ f f' _ (h _ fun m hm => by
      have := congrArg List.length (Subtype.mk.inj hm)
      simp only [Spec.edInput, List.length_append, bytes_length] at this
      omega) ((hwin _ _).1 hw).2⟩) k
  have hs := cma_sim (A := A1) (pt := edPt C hD) (sig := fun _ n c => edSig C a n c) (spt := Spec.edFakePt C (a • C.base) hD)
    (ssig := fun _ s c => Spec.edFake C (a • C.base) s c) (τ := fun n c => (Codec.leVal n.1 : ZMod edL) + wide c * a)
    (fun n : Bytes 64 => (⟨Codec.leVal n.1 / edL, Nat.lt_succ_of_le (Nat.div_le_div_right ((bytesEquiv 64) n).2.le)⟩ : Fin Spec.edQuot))
    hA (fun m n c => by
      unfold Spec.edFakePt
      apply Subtype.ext
      simp only
      rw [edFake_eq hC]
      rfl) (fun m n c => edFake_eq hC a n c)
    (fun n n' c h1 h2 => by
      have h1 := add_right_cancel h1
      rw [ZMod.natCast_eq_natCast_iff'] at h1
      have h2 := Fin.mk.inj h2
      refine (bytesEquiv 64).injective (Fin.ext ?_)
      show Codec.leVal n.1 = Codec.leVal n'.1
      rw [← Nat.div_add_mod (Codec.leVal n.1) edL, ← Nat.div_add_mod (Codec.leVal n'.1) edL, h1, h2])
    (fun m m' n n' h => (edPt_wide hC hD h).1) Spec.edQuot
    (fun m x => by
      by_cases hex : ∃ n, edPt C hD m n = x
      · obtain ⟨n0, rfl⟩ := hex
        refine (card_le_card fun n hn => ?_).trans (card_residue_le 64 edL (wide n0) edL_pos)
        exact mem_filter.2 ⟨mem_univ _, (edPt_wide hC hD (mem_filter.1 hn).2).2⟩
      · rw [filter_false_of_mem fun n _ hn => hex ⟨n, hn⟩, card_empty]
        exact Nat.zero_le _)
    x0 win
    (fun f f' l h hw => (hwin _ _).2 ⟨((hwin _ _).1 hw).1, hver _ f f' _ (h _ fun m v hm he => ((hwin _ _).1 hw).1 (by
      have := List.append_inj_right (List.append_inj_right (Subtype.mk.inj he) (by rw [bytes_length, bytes_length])) rfl
      have h2 : (out (A.expand l)).1 = m := by
        revert this
        generalize (out (A.expand l)).1 = d
        intro this
        cases d; cases m
        simp only at this
        rw [Subtype.ext this]
      rw [h2]
      exact hm)) ((hwin _ _).1 hw).2⟩) k
  rw [card_bytes_type, card_bytes_type] at hn
  rw [card_bytes_type, Fintype.card_fin] at hs
  have hRle : R.card ≤ (univ.filter fun q : Bytes 32 × (D → Bytes 64) =>
      win q.2 (A1.play q.2 (Spec.byHash (edPt C hD) (fun _ n c => edSig C a n c) (edNp hD q.1) q.2) k)).card := by
    refine card_filter_imp fun q hq => ?_
    have h1 := hq.1
    have h2 := hq.2
    rw [← hgen q.1 q.2, hplay q.1 q.2] at h2
    rw [hplay q.1 q.2] at h1
    exact (hwin _ _).2 ⟨fun h => h1 (once_asked h), hver q.1 q.2 q.2 _ rfl h2⟩
  have hTle : (univ.filter fun q : ((Fin k → ZMod edL) × (Fin k → Bytes 64)) × (D → Bytes 64) =>
        win q.2 (Spec.cmaRun A1 (Spec.edFakePt C (a • C.base) hD) (fun _ s c => Spec.edFake C (a • C.base) s c) x0 (Spec.pad q.1.1) (Spec.pad q.1.2)
          q.2 k)).card ≤ T.card := by
    exact card_filter_imp fun q hq => ((hwin _ _).1 hq).2
  exact cma_arith hn hs hRle hTle

set_option exponentiation.threshold 600 in
theorem edQuot_loss : (Spec.edQuot * edL : ℚ) / 256 ^ 64 ≤ 1 + 1 / 2 ^ 259 ∧ (Spec.edQuot : ℚ) / 256 ^ 64 ≤ 1 / 2 ^ 251 := by
  have h1 : Spec.edQuot * edL * 2 ^ 259 ≤ 256 ^ 64 * (2 ^ 259 + 1) := by decide +kernel
  have h2 : Spec.edQuot * 2 ^ 251 ≤ 256 ^ 64 := by decide +kernel
  constructor
  · rw [div_le_iff₀ (by positivity), ← sub_nonneg]
    have h1 : ((Spec.edQuot : ℕ) : ℚ) * (edL : ℕ) * 2 ^ 259 ≤ 256 ^ 64 * (2 ^ 259 + 1) := by exact_mod_cast h1
    have h3 : (0 : ℚ) < 2 ^ 259 := by positivity
    have h4 : (1 + 1 / 2 ^ 259 : ℚ) * 256 ^ 64 - Spec.edQuot * edL =
      (256 ^ 64 * (2 ^ 259 + 1) - Spec.edQuot * edL * 2 ^ 259) / 2 ^ 259 := by
      field_simp
    rw [h4]
    exact div_nonneg (by linarith) h3.le
  · rw [div_le_div_iff₀ (by positivity) (by positivity), one_mul]
    exact_mod_cast h2

theorem cs_arith {ι : Type} [Fintype ι] {V K F M Q : ℕ} {t w : ι → ℕ} (hcs : (∑ q, t q) ^ 2 ≤ M * ∑ q, t q ^ 2)
    (hq : ∀ q, V * t q ^ 2 ≤ K * F * (w q + t q * Q)) : V * (∑ q, t q) ^ 2 ≤ K * (F * M) * (∑ q, w q + (∑ q, t q) * Q) :=
  calc V * (∑ q, t q) ^ 2 ≤ V * (M * ∑ q, t q ^ 2) := Nat.mul_le_mul_left _ hcs
    _ = M * ∑ q, V * t q ^ 2 := by rw [← mul_sum]; ring
    _ ≤ M * ∑ q, K * F * (w q + t q * Q) := Nat.mul_le_mul_left _ (sum_le_sum fun q _ => hq q)
    _ = _ := by rw [← mul_sum, sum_add_distrib, ← sum_mul]; ring

theorem cma_arith_rat {V P F Q L k r t : ℕ} (hV : 0 < V) (hP : 0 < P) (hF : 0 < F) (hL : 0 < L)
    (h : V * (r * V ^ k * V ^ k) ≤ P * (V * (Q ^ k * t) + k ^ 2 * Q * (F * V ^ k * V ^ k)) + V * (k * (F * V ^ k) * V ^ k)) :
    (r : ℚ) / (P * F) ≤ ((Q * L : ℚ) / V) ^ k * (t / (L ^ k * V ^ k * F)) + k ^ 2 * (Q / V) + k / P := by
  have h : (V : ℚ) * (r * V ^ k * V ^ k) ≤ P * (V * (Q ^ k * t) + k ^ 2 * Q * (F * V ^ k * V ^ k)) + V * (k * (F * V ^ k) * V ^ k) := by
    exact_mod_cast h
  have hV : (0 : ℚ) < V := by exact_mod_cast hV
  have hP : (0 : ℚ) < P := by exact_mod_cast hP
  have hF : (0 : ℚ) < F := by exact_mod_cast hF
  have hL : (0 : ℚ) < L := by exact_mod_cast hL
  have e : ((Q * L : ℚ) / V) ^ k * (t / (L ^ k * V ^ k * F)) + k ^ 2 * (Q / V) + k / P =
      (P * (V * (Q ^ k * t) + k ^ 2 * Q * (F * V ^ k * V ^ k)) + V * (k * (F * V ^ k) * V ^ k)) / (V * V ^ k * V ^ k * (P * F)) := by
    rw [div_pow, mul_pow]
    field_simp
  rw [e, div_le_div_iff₀ (by positivity) (by positivity)]
  calc (r : ℚ) * (V * V ^ k * V ^ k * (P * F)) = (V * (r * V ^ k * V ^ k)) * (P * F) := by ring
    _ ≤ _ := by gcongr

open Classical in
/-- **C110** (simulation). With `ε` the chance, over the table and the prefix, that the forger wins against `Signature::new` with a
generated key, and `ε'` the chance, over the table, the responses `s` and the challenges `c`, that `verify` accepts what it outputs
when the signatures are made up from the public key: `ε ≤ (1 + 2⁻²⁵⁹)^k ε' + k² 2⁻²⁵¹ + k 2⁻²⁵⁶`. -/
theorem C110 (hC : C.Laws) (seed low : Bytes 32) (sha : Bytes 32 → (D → Bytes 64) → List UInt8 → Bytes 64)
    (hsha : ∀ p f (x : D), sha p f x.1 = f x) (hseed : ∀ p f, sha p f seed.1 = Bytes.append32 low p)
    (hpk : pk.bytes = C.compress (clamp (Codec.leVal low.1) • C.base)) (hD : Spec.EdDomain D pk)
    (k : ℕ) (A : Spec.EdAttacker D) (out : List (Bytes 64 ⊕ Signature) → Digest × Signature) (p₀ : Bytes 32) (x0 : D) :
    let ed : Bytes 32 → (D → Bytes 64) → EdOps := fun p f => (Spec.withSha C (sha p f)).ops zs
    let replies : Bytes 32 → (D → Bytes 64) → List (Bytes 64 ⊕ Signature) := fun p f =>
      A.play f (fun _ => Spec.edSigner (ed p f) (generateKeypair (ed p f) seed).2) k
    let R := univ.filter fun q : Bytes 32 × (D → Bytes 64) =>
      ¬ A.Asked (replies q.1 q.2) (out (replies q.1 q.2)).1 ∧
      Signature.verify (ed q.1 q.2) (out (replies q.1 q.2)).2 (out (replies q.1 q.2)).1 (generateKeypair (ed q.1 q.2) seed).1 = .ok ()
    let run : ((Fin k → ZMod edL) × (Fin k → Bytes 64)) → (D → Bytes 64) → Digest × Signature := fun q f =>
      out (Spec.edSim C (clamp (Codec.leVal low.1) • C.base) hD A x0 q.1 q.2 f)
    let T := univ.filter fun q : ((Fin k → ZMod edL) × (Fin k → Bytes 64)) × (D → Bytes 64) =>
      Signature.verify (ed p₀ q.2) (run q.1 q.2).2 (run q.1 q.2).1 pk = .ok ()
    let ε : ℚ := R.card / (256 ^ 32 * Fintype.card (D → Bytes 64))
    let ε' : ℚ := T.card / (edL ^ k * (256 ^ 64) ^ k * Fintype.card (D → Bytes 64))
    ε ≤ (1 + 1 / 2 ^ 259) ^ k * ε' + k ^ 2 * (1 / 2 ^ 251) + k * (1 / 2 ^ 256) := by
  intro ed replies R run T ε ε'
  have h := cma_arith_rat (L := edL) (by positivity) (by positivity) Fintype.card_pos edL_pos
    (ed_cma zs hC seed low sha hsha hseed hpk hD k A out p₀ x0)
  obtain ⟨h1, h2⟩ := edQuot_loss
  have hε : ε ≤ ((Spec.edQuot * edL : ℚ) / 256 ^ 64) ^ k * ε' + k ^ 2 * (Spec.edQuot / 256 ^ 64) + k / 256 ^ 32 := by
    rw [Nat.cast_pow 256 64, Nat.cast_pow 256 32] at h
    exact h
  have h0 : 0 ≤ ε' := div_nonneg (Nat.cast_nonneg _) (by positivity)
  have h3 : (k : ℚ) / 256 ^ 32 = k * (1 / 2 ^ 256) := by
    rw [show (256 : ℚ) ^ 32 = 2 ^ 256 by norm_num, mul_one_div]
  rw [h3] at hε
  refine hε.trans ?_
  gcongr

open Classical in
/-- **C110** (extraction). Running the simulation twice, the second time with a new hash value at the input `verify` hashes, gives
the secret scalar: with `T` as before and `W` the number of draws, tables and new values for which it does,
`N T² ≤ (k + 1) |draws| |tables| (W + T (N / edL + 1))` for `N = 256^64`. No step uses the scalar or the prefix. -/
theorem C110_extract (hC : C.Laws) (a : ℕ) (hpk : pk.bytes = C.compress (a • C.base)) (sha : (D → Bytes 64) → List UInt8 → Bytes 64)
    (hsha : ∀ f (x : D), sha f x.1 = f x) (hD : Spec.EdDomain D pk) (k : ℕ) (A : Spec.EdAttacker D)
    (out : List (Bytes 64 ⊕ Signature) → Digest × Signature) (x0 : D) :
    let run : ((Fin k → ZMod edL) × (Fin k → Bytes 64)) → (D → Bytes 64) → Digest × Signature := fun q f =>
      out (Spec.edSim C (a • C.base) hD A x0 q.1 q.2 f)
    let pt : ((Fin k → ZMod edL) × (Fin k → Bytes 64)) → (D → Bytes 64) → D := fun q f => ⟨Spec.edInput pk (run q f), hD.challenge _⟩
    let T := univ.filter fun q : ((Fin k → ZMod edL) × (Fin k → Bytes 64)) × (D → Bytes 64) =>
      Signature.verify ((Spec.withSha C (sha q.2)).ops zs) (run q.1 q.2).2 (run q.1 q.2).1 pk = .ok ()
    let W := univ.filter fun q : ((Fin k → ZMod edL) × (Fin k → Bytes 64)) × ((D → Bytes 64) × Bytes 64) =>
      Spec.extract (wide (q.2.1 (pt q.1 q.2.1))) (wide q.2.2) (Codec.leVal (run q.1 q.2.1).2.part2.1)
        (Codec.leVal (run q.1 (Function.update q.2.1 (pt q.1 q.2.1) q.2.2)).2.part2.1) = (a : ZMod edL)
    256 ^ 64 * T.card ^ 2 ≤ (k + 1) * (Fintype.card (D → Bytes 64) * (edL ^ k * (256 ^ 64) ^ k)) * (W.card + T.card * Spec.edQuot) := by
  intro run pt T W
  let t : (Fin k → ZMod edL) × (Fin k → Bytes 64) → ℕ := fun q => (univ.filter fun f : D → Bytes 64 =>
    Signature.verify ((Spec.withSha C (sha f)).ops zs) (run q f).2 (run q f).1 pk = .ok ()).card
  let w : (Fin k → ZMod edL) × (Fin k → Bytes 64) → ℕ := fun q => (univ.filter fun p : (D → Bytes 64) × Bytes 64 =>
    Spec.extract (wide (p.1 (pt q p.1))) (wide p.2) (Codec.leVal (run q p.1).2.part2.1)
        (Codec.leVal (run q (Function.update p.1 (pt q p.1) p.2)).2.part2.1) = (a : ZMod edL)).card
  have hT : T.card = ∑ q, t q := by
    simp only [T, t, card_filter, Fintype.sum_prod_type]
  have hW : W.card = ∑ q, w q := by
    simp only [W, w, card_filter, Fintype.sum_prod_type]
  have hdec : C.decompress pk.bytes = some (a • C.base) := by rw [hpk, hC.round]
  have hq : ∀ q, 256 ^ 64 * t q ^ 2 ≤ (k + 1) * Fintype.card (D → Bytes 64) * (w q + t q * Spec.edQuot) := fun q =>
    C109 zs hC pk a hdec D sha hsha k
      (Spec.cmaQuery (A.once x0) (Spec.edFakePt C (a • C.base) hD) (fun _ s c => Spec.edFake C (a • C.base) s c) x0 (Spec.pad q.1) (Spec.pad q.2))
      (fun l => out (A.expand (Spec.cmaState (A.once x0) (Spec.edFakePt C (a • C.base) hD) (fun _ s c => Spec.edFake C (a • C.base) s c)
        (Spec.pad q.1) (Spec.pad q.2) l).1))
      (fun l => hD.challenge _)
  have hM : Fintype.card ((Fin k → ZMod edL) × (Fin k → Bytes 64)) = edL ^ k * (256 ^ 64) ^ k := by
    rw [Fintype.card_prod, Fintype.card_fun, Fintype.card_fun, Fintype.card_fin, ZMod.card, card_bytes_type]
  have hcs := sq_sum_le_card_mul_sum_sq (s := (univ : Finset ((Fin k → ZMod edL) × (Fin k → Bytes 64)))) (f := t)
  rw [card_univ, hM] at hcs
  rw [hT, hW]
  exact cs_arith hcs hq

/-- Non-vacuity of C110: a forger that knows the scalar asks for a signature on one digest, looks up a hash, and signs another digest. It
wins for all tables and prefixes, so that `ε = 1`. -/
example (hC : C.Laws) (seed low : Bytes 32) : ∃ (D : Finset (List UInt8)) (pk : PublicKey) (_ : Spec.EdDomain D pk)
    (sha : Bytes 32 → (D → Bytes 64) → List UInt8 → Bytes 64) (A : Spec.EdAttacker D)
    (out : List (Bytes 64 ⊕ Signature) → Digest × Signature) (d : Digest),
    (∀ p f (x : D), sha p f x.1 = f x) ∧ (∀ p f, sha p f seed.1 = Bytes.append32 low p) ∧
    pk.bytes = C.compress (clamp (Codec.leVal low.1) • C.base) ∧
    ∀ p f, let ed := (Spec.withSha C (sha p f)).ops zs
      let l := A.play f (fun _ => Spec.edSigner ed (generateKeypair ed seed).2) 2
      A.Asked l d ∧ ¬ A.Asked l (out l).1 ∧ Signature.verify ed (out l).2 (out l).1 (generateKeypair ed seed).1 = .ok () := by
  classical
  set a := clamp (Codec.leVal low.1) with ha
  let pk : PublicKey := ⟨C.compress (a • C.base)⟩
  obtain ⟨D, hDm⟩ : ∃ D : Finset (List UInt8), ∀ x, x ∈ D ↔ (∃ p d : Bytes 32, p.1 ++ d.1 = x) ∨ ∃ R d : Bytes 32, R.1 ++ (pk.bytes.1 ++ d.1) = x := by
    refine ⟨(univ.image fun q : Bytes 32 × Bytes 32 => q.1.1 ++ q.2.1) ∪
      univ.image fun q : Bytes 32 × Bytes 32 => q.1.1 ++ (pk.bytes.1 ++ q.2.1), fun x => ?_⟩
    simp only [mem_union, mem_image, mem_univ, true_and, Prod.exists]
  have hD : Spec.EdDomain D pk := ⟨fun p d => (hDm _).2 (.inl ⟨p, d.bytes, rfl⟩), fun o => (hDm _).2 (.inr ⟨o.2.part1, o.1.bytes, rfl⟩)⟩
  have hs : seed.1 ∉ D := by
    intro h
    rcases (hDm _).1 h with ⟨p, d, h⟩ | ⟨p, d, h⟩ <;>
      · have := congrArg List.length h
        simp only [List.length_append, bytes_length] at this
        omega
  let z : Bytes 64 := (bytesEquiv 64).symm ⟨0, by positivity⟩
  let d0 : Digest := ⟨⟨Codec.leBytes 32 0, Codec.length_leBytes _ _⟩⟩
  let d1 : Digest := ⟨⟨Codec.leBytes 32 1, Codec.length_leBytes _ _⟩⟩
  have hne : d0 ≠ d1 := by decide
  let sg : Bytes 64 → Signature := fun c => Spec.signWith (Spec.withSha C fun _ => c) a 1 d1 pk
  let x : D := ⟨Spec.edInput pk (d1, sg z), hD.challenge _⟩
  let val : Option (Bytes 64 ⊕ Signature) → Bytes 64 := fun o => (o.bind Sum.getLeft?).getD z
  obtain ⟨A, hact⟩ : ∃ A : Spec.EdAttacker D, ∀ l, A.act l = if l.length = 0 then .inr d0 else .inl x := ⟨⟨_⟩, fun _ => rfl⟩
  refine ⟨D, pk, hD, fun p f y => if h : y ∈ D then f ⟨y, h⟩ else Bytes.append32 low p, A, fun l => (d1, sg (val l[1]?)), d0,
    fun p f y => dif_pos y.2, fun p f => dif_neg hs, rfl, ?_⟩
  intro p f ed l
  have hlen : l.length = 2 := play_length ..
  have hx : l[1]? = some (.inl (f x)) := by
    have h1 : ∀ sgn : ℕ → Digest → Signature, A.act (A.play f sgn 1) = .inl x := fun sgn => (hact _).trans (if_neg (by rw [play_length]; decide))
    have h2 : ∀ sgn : ℕ → Digest → Signature, (A.play f sgn 2)[1]? = some (.inl (f x)) := by
      intro sgn
      rw [Spec.Attacker.play, List.getElem?_append_right (by rw [play_length]), play_length, h1]
      rfl
    exact h2 _
  refine ⟨⟨0, by omega, (hact _).trans (if_pos (by simp))⟩, ?_, ?_⟩
  · rintro ⟨j, hj, h⟩
    rw [hact] at h
    split at h
    · exact hne (Sum.inr.inj h)
    · cases h
  · rw [show (generateKeypair ed seed).1 = pk from gen_pk zs seed low p _ (dif_neg hs)]
    show Signature.verify ed (sg (val l[1]?)) d1 pk = .ok ()
    rw [show val l[1]? = f x by rw [hx]; rfl]
    have hC' : (Spec.withSha C fun _ => f x).Laws := ⟨hC.order, hC.base_ne, hC.round⟩
    have h1 := C109_use zs hC' pk a (not_dvd_clamp _) (hC.round _) d1 1 (by decide +kernel)
    exact verify_congr (sha' := fun y => if h : y ∈ D then f ⟨y, h⟩ else Bytes.append32 low p) (o := (d1, sg (f x))) zs
      (by
        have e : Spec.edInput pk (d1, sg (f x)) = x.1 := rfl
        have e' : (if h : x.1 ∈ D then f ⟨x.1, h⟩ else Bytes.append32 low p) = f x := dif_pos x.2
        simp only [e]
        exact e'.symm) h1

end Verif
