import Verif.Model.Aggregator

/-!
# Laws of the external operations

Hypotheses about the dependencies (arkworks, ed25519-dalek), as explicit `Prop` structures.  They are hypotheses
of the theorems that need them, never axioms; `Verif/Toy.lean` exhibits models in which all of them hold.
-/

namespace Verif

variable {r : ℕ} [Fact r.Prime] {G1 G2 K : Type}

/-- The pairing is bilinear and non-degenerate on the prime-order groups. -/
structure PairLaws [AddCommGroup G1] [AddCommGroup G2] [CommMonoid K] (S : Suite r G1 G2 K) : Prop where
  add_left : ∀ P P' Q, S.pair (P + P') Q = S.pair P Q * S.pair P' Q
  add_right : ∀ P Q Q', S.pair P (Q + Q') = S.pair P Q * S.pair P Q'
  zero_left : ∀ Q, S.pair 0 Q = 1
  zero_right : ∀ P, S.pair P 0 = 1
  nondeg : ∀ P Q, S.pair P Q = 1 → P = 0 ∨ Q = 0

/-- A group of prime order: every element is a multiple of every non-zero element. -/
def CyclicGroup (r : ℕ) (G : Type) [AddCommGroup G] [Module (ZMod r) G] : Prop :=
  ∀ P Q : G, P ≠ 0 → ∃ s : ZMod r, Q = s • P

/-- Correctness of EdDSA: generated key pairs parse, and their signatures parse and verify (strictly). -/
structure EdLaws (ed : EdOps) : Prop where
  keypair_ok : ∀ seed, ed.keypairOk (Bytes.append32 seed (ed.derivePk seed)) = true
  pk_ok : ∀ seed, ed.pkOk (ed.derivePk seed) = true
  sig_ok : ∀ seed msg, ed.sigOk (ed.sign (Bytes.append32 seed (ed.derivePk seed)) msg) = true
  verifies : ∀ seed msg,
    ed.verifyStrict (ed.derivePk seed) msg (ed.sign (Bytes.append32 seed (ed.derivePk seed)) msg) = true

/-- Curve-point and scalar codecs: round trip and fixed size (as for BLS12-381: 48, 96 and 32 bytes). -/
structure CodecLaws (S : Suite r G1 G2 K) (n1 n2 nf : ℕ) : Prop where
  c1 : S.c1.codec.Lawful
  c2 : S.c2.codec.Lawful
  fr : S.frC.Lawful
  c1size : S.c1.codec.Fixed n1
  c2size : S.c2.codec.Fixed n2
  frsize : S.frC.Fixed nf

/-- `hash_to_field` terminates on every input. (With a concrete ChaCha stream this is not provable; it
fails only if the 2^64-block stream never yields an element below the modulus.) -/
def HashTotal (H : HashEnv r) : Prop :=
  ∀ p msg : List UInt8, ∃ k, (H.frFromRandom (block (H.stream p msg) H.frSize k)).isSome

end Verif
