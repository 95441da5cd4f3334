import Verif.Props.Nizk
import Verif.Props.Schnorr
import Verif.Props.EdDSA
import Verif.Lemmas.Codec

/-!
# Key and statement generation, setup, secret-key hygiene, digests, signed bytes, zero knowledge: C64, C66 – C69
-/

namespace Verif

set_option linter.unusedSectionVars false

variable {r : ℕ} [Fact r.Prime] {G H : Type} [AddCommGroup G] [DecidableEq G] [Module (ZMod r) G]
  [AddCommGroup H] [DecidableEq H] [Module (ZMod r) H]

/-! ### C64 -/

/-- **C64** (pairs). Generated pairs consist of the scalar drawn next and its multiples of the generators; the given-scalar
variants return the given scalar with its multiples; generation uses up exactly one draw. -/
theorem C64_pairs (g : G) (h : H) (rng : Rng r) (s : ZMod r) :
    Schnorr.generateKeypair g rng = ((rng 0, rng 0 • g), fun i => rng (1 + i)) ∧
    DLK.generatePair g rng = ((rng 0, rng 0 • g), fun i => rng (1 + i)) ∧
    DLEQ.generatePair (g, h) rng = ((rng 0, (rng 0 • g, rng 0 • h)), fun i => rng (1 + i)) ∧
    Schnorr.fromSk g s = (s, s • g) ∧ DLK.fromWitness g s = (s, s • g) ∧
    DLEQ.fromWitness (g, h) s = (s, (s • g, s • h)) := by
  simp only [Schnorr.generateKeypair, DLK.generatePair, DLEQ.generatePair, Schnorr.fromSk, DLK.fromWitness,
    DLEQ.fromWitness, mulRepr_eq_smul]
  refine ⟨?_, ?_, ?_, ?_, ?_, ?_⟩ <;> first | rfl | trivial

/-- **C64** (different secrets). Over a non-zero generator, different draws give different public keys. -/
theorem C64_injective (g : G) (hg : g ≠ 0) (rng rng' : Rng r)
    (h : (Schnorr.generateKeypair g rng).1.2 = (Schnorr.generateKeypair g rng').1.2) :
    (Schnorr.generateKeypair g rng).1 = (Schnorr.generateKeypair g rng').1 := by
  simp only [Schnorr.generateKeypair, mulRepr_eq_smul] at h ⊢
  rw [smul_left_inj_of_ne hg h]

/-- **C64** (setups agree). The setups of the two proof systems and of the signature scheme ignore the random generator: what
one party proves or signs under its own setup verifies under any other party's setup. -/
theorem C64_setup (C1 : Curve G) (C2 : Curve H) (env : HashEnv r) (rngA rngB rngC rng rng' : Rng r) (w : ZMod r)
    (msg : List UInt8) :
    (∀ proof, DLK.prove C1 env (DLK.setup C1 rngA) rng w = .ok (proof, rng') →
      DLK.verify C1 env (DLK.setup C1 rngB) (DLK.fromWitness (DLK.setup C1 rngC) w).2 proof = .ok ()) ∧
    (∀ proof, DLEQ.prove C1 C2 env (DLEQ.setup C1 C2 rngA) rng w = .ok (proof, rng') →
      DLEQ.verify C1 C2 env (DLEQ.setup C1 C2 rngB) (DLEQ.fromWitness (DLEQ.setup C1 C2 rngC) w).2 proof = .ok ()) ∧
    (∀ sig, Schnorr.sign C1 env (Schnorr.setup C1 rngA) rng w msg = .ok (sig, rng') →
      Schnorr.verify C1 env (Schnorr.setup C1 rngB) (Schnorr.fromSk (Schnorr.fromGenerator (Schnorr.setup C1 rngC)) w).2 msg
        sig = .ok ()) :=
  ⟨fun proof h => (C36 C1 env _ rng rng' w proof h).2,
   fun proof h => (C40 C1 C2 env _ rng rng' w proof h).2,
   fun sig h => (C44 C1 env _ rng rng' w msg sig h).2⟩

/-- **C64** (generators). The setups return the curves' fixed generators; `from_generator` keeps the given one; the PVSS
setup keeps its three drawn points in the fields `g1`, `g2`, `g2_prime`. -/
theorem C64_generators (C1 : Curve G) (C2 : Curve H) (rng : Rng r) (g : G) (d1 : G) (d2 d3 : H) :
    DLK.setup C1 rng = C1.gen ∧ Schnorr.setup C1 rng = C1.gen ∧ DLEQ.setup C1 C2 rng = (C1.gen, C2.gen) ∧
    Schnorr.fromGenerator g = g ∧
    (SRS.setup d1 d2 d3).g1 = d1 ∧ (SRS.setup d1 d2 d3).g2 = d2 ∧ (SRS.setup d1 d2 d3).g2Prime = d3 :=
  ⟨rfl, rfl, rfl, rfl, rfl, rfl, rfl⟩

/-- Non-vacuity of C64: a generated key pair of the toy instance signs and verifies across setups. -/
example (rng rngA rngB : Rng 13) : ∃ sig rng', Schnorr.sign (Toy.curve 13) (Toy.hashEnv 13) (Schnorr.setup (Toy.curve 13) rngA)
      rng (Schnorr.generateKeypair (1 : ZMod 13) rng).1.1 [1, 2, 3] = .ok (sig, rng') ∧
    Schnorr.verify (Toy.curve 13) (Toy.hashEnv 13) (Schnorr.setup (Toy.curve 13) rngB)
      (Schnorr.generateKeypair (1 : ZMod 13) rng).1.2 [1, 2, 3] sig = .ok () := by
  obtain ⟨sig, h⟩ := C44_total (Toy.curve 13) (Toy.hashEnv 13) (Toy.hashTotal 13) (Schnorr.setup (Toy.curve 13) rngA) rng
    (Schnorr.generateKeypair (1 : ZMod 13) rng).1.1 [1, 2, 3]
  exact ⟨sig, _, h, (C64_setup (Toy.curve 13) (Toy.curve 13) (Toy.hashEnv 13) rngA rngB rngB rng _ _ [1, 2, 3]).2.2 sig h⟩

/-! ### C66 -/

/-- **C66** (drop). What a dropped secret key leaves in memory is 64 zero bytes, whatever the key was. -/
theorem C66_drop (k : SecretKey) : k.dropped = List.replicate 64 0 := by
  unfold SecretKey.dropped
  rw [List.map_const', k.bytes.2]

/-- **C66** (debug output). `Debug` of a secret key is the base64 text of the whole key: reading it back with
`from_base64` gives the key, so any log line with a secret key's debug text reveals it. -/
theorem C66_debug (k : SecretKey) : SecretKey.fromBase64 k.debug = .ok k := (C56_roundtrip).2 k

/-- Non-vacuity: the debug text of a concrete key is not blanked. -/
example : SecretKey.debug ⟨Bytes.append32 (Toy.pad32 [1, 2, 3]) (Toy.pad32 [])⟩ ≠
    SecretKey.debug ⟨Bytes.append32 (Toy.pad32 [1, 2, 4]) (Toy.pad32 [])⟩ := by decide

/-! ### C67 -/

/-- **C67**. A slice converts to a digest exactly when it has 32 bytes, and then the digest's bytes are the slice;
`to_vec` is the inverse, and every digest has size 32. -/
theorem C67 :
    (∀ (l : List UInt8) (d : Digest), Digest.tryFrom l = some d ↔ d.toVec = l) ∧
    (∀ l : List UInt8, Digest.tryFrom l = none ↔ l.length ≠ 32) ∧
    (∀ d : Digest, d.size = 32 ∧ d.toVec.length = 32) := by
  refine ⟨fun l d => ?_, fun l => ?_, fun d => ⟨d.bytes.2, d.bytes.2⟩⟩
  · unfold Digest.tryFrom Digest.toVec
    split
    · rename_i h
      constructor
      · intro h'; cases h'; rfl
      · rintro rfl; rfl
    · rename_i h
      constructor
      · intro h'; cases h'
      · rintro rfl; exact absurd d.bytes.2 h
  · unfold Digest.tryFrom
    split <;> simp_all

/-- Non-vacuity: slices of 31, 32 and 33 bytes. -/
example : Digest.tryFrom (List.replicate 31 7) = none ∧ Digest.tryFrom (List.replicate 33 7) = none ∧
    Digest.tryFrom (List.replicate 32 7) = some ⟨⟨List.replicate 32 7, rfl⟩⟩ := by decide

/-! ### C68 -/

variable {G1 G2 K : Type} [AddCommGroup G1] [DecidableEq G1] [AddCommGroup G2] [DecidableEq G2]

/-- **C68**. `message_from_pi_i` returns exactly the bytes that `digest` hashes: the commitment, the challenge, the
response and `gs`, in this order; different proofs give different bytes, and the proof can be read back from them. -/
theorem C68 (S : Suite r G1 G2 K) {n1 n2 nf : ℕ} (hC : CodecLaws S n1 n2 nf) (d d' : DecompProof r G2) :
    messageFromPi S d = S.c2.codec.enc d.proof.1 ++ S.frC.enc d.proof.2.1 ++ S.frC.enc d.proof.2.2 ++
      S.c2.codec.enc d.gs ∧
    d.digest S = ⟨S.shake (messageFromPi S d)⟩ ∧
    (messageFromPi S d = messageFromPi S d' → d = d') ∧
    (∀ rest, (DecompProof.codec S).dec (messageFromPi S d ++ rest) = .ok (d, rest)) := by
  refine ⟨?_, rfl, fun h => (decompProof_lawful hC).inj h, decompProof_lawful hC d⟩
  simp [messageFromPi, DecompProof.codec, proofCodec, Codec.iso, Codec.prod, List.append_assoc]

/-- Non-vacuity: two proofs of the toy instance that differ only in `gs`. -/
example : messageFromPi (Toy.suite 13) ⟨(1, 2, 3), 4⟩ ≠ messageFromPi (Toy.suite 13) ⟨(1, 2, 3), 5⟩ := by decide

/-! ### C69 -/

/-- **C69** (discrete-log proofs). The accepting proofs of a statement with witness `w` are exactly the possible outputs of
`prove`, and each is output for exactly one nonce. So with a uniform nonce the proof is uniformly distributed over the
accepting proofs, a set that does not depend on the witness. -/
theorem C69_dlk (C : Curve G) (env : HashEnv r) (g : G) (rng : Rng r) (w : ZMod r) (proof : DLK.Proof r G) :
    DLK.verify C env g (w • g) proof = .ok () ↔
      ∃! k, ∃ rng', DLK.prove C env g (Spec.withFirst k rng) w = .ok (proof, rng') := by
  constructor
  · intro h
    obtain ⟨h1, h2⟩ := dlk_verify_ok h
    obtain ⟨X, c, z⟩ := proof
    simp only at h1 h2
    refine ⟨z + w * c, ⟨(Spec.withFirst (z + w * c) rng).drop 1, ?_⟩, ?_⟩
    · have hX : (z + w * c) • g = X := by rw [← h2, add_smul, smul_smul, mul_comm w c]
      simp only [DLK.prove, Spec.withFirst, if_true, mulRepr_eq_smul, hX, h1, Res.bind_ok', add_sub_cancel_right]
    · rintro k ⟨rng', hk⟩
      simp only [DLK.prove, Spec.withFirst, if_true, mulRepr_eq_smul, Res.bind_eq_ok] at hk
      obtain ⟨c', -, hk⟩ := hk
      cases hk
      rw [sub_add_cancel]
  · rintro ⟨k, ⟨rng', h⟩, -⟩
    have := (C36 C env g _ rng' w proof h).2
    simpa [DLK.fromWitness, mulRepr_eq_smul] using this

/-- **C69** (equality proofs). The same for `DLEQProof`. -/
theorem C69_dleq (C1 : Curve G) (C2 : Curve H) (env : HashEnv r) (g : G) (h : H) (rng : Rng r) (w : ZMod r)
    (proof : DLEQ.Proof r G H) :
    DLEQ.verify C1 C2 env (g, h) (w • g, w • h) proof = .ok () ↔
      ∃! k, ∃ rng', DLEQ.prove C1 C2 env (g, h) (Spec.withFirst k rng) w = .ok (proof, rng') := by
  constructor
  · intro hv
    obtain ⟨h1, h2, h3⟩ := dleq_verify_ok hv
    obtain ⟨⟨X, Y⟩, c, z⟩ := proof
    simp only at h1 h2 h3
    refine ⟨z + w * c, ⟨(Spec.withFirst (z + w * c) rng).drop 1, ?_⟩, ?_⟩
    · have hX : (z + w * c) • g = X := by rw [← h2, add_smul, smul_smul, mul_comm w c]
      have hY : (z + w * c) • h = Y := by rw [← h3, add_smul, smul_smul, mul_comm w c]
      simp only [DLEQ.prove, Spec.withFirst, if_true, mulRepr_eq_smul, hX, hY, h1, Res.bind_ok', add_sub_cancel_right]
    · rintro k ⟨rng', hk⟩
      simp only [DLEQ.prove, Spec.withFirst, if_true, mulRepr_eq_smul, Res.bind_eq_ok] at hk
      obtain ⟨c', -, hk⟩ := hk
      cases hk
      rw [sub_add_cancel]
  · rintro ⟨k, ⟨rng', hp⟩, -⟩
    have := (C40 C1 C2 env (g, h) _ rng' w proof hp).2
    simpa [DLEQ.fromWitness, mulRepr_eq_smul] using this

/-- **C69** (signatures). The valid signatures on a message are exactly the possible outputs of `sign`, each for exactly one
nonce. -/
theorem C69_schnorr (C : Curve G) (env : HashEnv r) (g : G) (rng : Rng r) (sk : ZMod r) (msg : List UInt8)
    (sig : Schnorr.Sig r G) :
    Schnorr.verify C env g (sk • g) msg sig = .ok () ↔
      ∃! k, ∃ rng', Schnorr.sign C env g (Spec.withFirst k rng) sk msg = .ok (sig, rng') := by
  constructor
  · intro hv
    obtain ⟨c, h1, h2⟩ := schnorr_verify_ok hv
    obtain ⟨X, z⟩ := sig
    simp only at h1 h2
    refine ⟨z + sk * c, ⟨(Spec.withFirst (z + sk * c) rng).drop 1, ?_⟩, ?_⟩
    · have hX : (z + sk * c) • g = X := by rw [← h2, add_smul, smul_smul, mul_comm sk c]
      simp only [Schnorr.sign, Spec.withFirst, if_true, mulRepr_eq_smul, hX, h1, Res.bind_ok', add_sub_cancel_right]
    · rintro k ⟨rng', hk⟩
      simp only [Schnorr.sign, Spec.withFirst, if_true, mulRepr_eq_smul, Res.bind_eq_ok] at hk
      obtain ⟨c', h1', hk⟩ := hk
      cases hk
      rw [h1] at h1'
      cases h1'
      rw [sub_add_cancel]
  · rintro ⟨k, ⟨rng', hp⟩, -⟩
    have := (C44 C env g _ rng' sk msg sig hp).2
    simpa [Schnorr.fromSk, mulRepr_eq_smul] using this

/-- Non-vacuity of C69: an accepting proof for `5 • 1`. -/
example : DLK.verify (Toy.curve 13) (Toy.constHash 13 1) (1 : ZMod 13) ((5 : ZMod 13) • 1) (3, 1, 11) = .ok () := by
  rw [dlk_verify_eq _ _ _ _ _ (constHash_eq 1 _ _ dlk_persona_length)]; decide

end Verif
