import Verif.Lemmas.EdScalar
import Verif.Props.EdLimb

/-!
# C132: scalars of EdDSA computed in limbs
-/

set_option exponentiation.threshold 600

namespace Verif

open EdProj

/-- **C132** (scalars). No operation on scalars overflows, whatever their 32 bytes; the result is the one modulo the order of the base
point, below it.  `check` accepts exactly the values below the order. -/
theorem C132_scalar :
    let l := 2 ^ 252 + 27742317777372353535851937790883648493
    (∀ h : Bytes 64, Scalar.wide h = some (Codec.leVal h.1 % l)) ∧
    (∀ m < 2 ^ 256, ∀ n < 2 ^ 256,
      Scalar.mul m n = some (m * n % l) ∧ Scalar.add m n = some ((m + n) % l) ∧ Scalar.reduce n = some (n % l) ∧
      (∃ x, Scalar.neg n = some x ∧ x < l ∧ (x + n) % l = 0) ∧ Scalar.check n = some (decide (n < l))) ∧
    (∀ ns : List ℕ, (∀ n ∈ ns, n < 2 ^ 256) → Scalar.sum ns = some (ns.sum % l)) := by
  refine ⟨Scalar.wide_spec, fun m hm n hn => ⟨Scalar.mul_spec hm hn, Scalar.add_spec hm hn, Scalar.reduce_spec hn,
    ⟨_, Scalar.neg_spec hn, Nat.mod_lt _ Scalar.edL_pos', ?_⟩, Scalar.check_spec hn⟩, Scalar.sum_spec⟩
  rw [← edL]
  have h := Nat.mod_lt n Scalar.edL_pos'
  rw [Nat.mod_add_mod, ← Nat.add_mod_mod, Nat.sub_add_cancel h.le, Nat.mod_self]

/-- Values around the order and the largest ones, and the order negated: zero, not the order. -/
example : let l := 2 ^ 252 + 27742317777372353535851937790883648493
    Scalar.mul (l - 1) (l - 1) = some 1 ∧ Scalar.mul (2 ^ 256 - 1) (2 ^ 256 - 1) = some ((2 ^ 256 - 1) * (2 ^ 256 - 1) % l) ∧
    Scalar.add (l - 1) 1 = some 0 ∧ Scalar.neg 0 = some 0 ∧ Scalar.neg l = some 0 ∧ Scalar.neg 1 = some (l - 1) ∧
    Scalar.sum [l - 1, l - 2, 5] = some 2 ∧ Scalar.check (l - 1) = some true ∧ Scalar.check l = some false ∧
    Scalar.check (2 ^ 255) = some false ∧ Scalar.wide ⟨List.replicate 64 255, rfl⟩ = some ((2 ^ 512 - 1) % l) := by
  refine ⟨?_, ?_, ?_, ?_, ?_, ?_, ?_, ?_, ?_, ?_, ?_⟩ <;> decide +kernel

/-- Outside the bounds the operations are wrong or fail: a product above `2^260 l` is not reduced, limbs of 64 bits overflow. -/
example : (Sc.montMul ⟨2 ^ 52 - 1, 2 ^ 52 - 1, 2 ^ 52 - 1, 2 ^ 52 - 1, 2 ^ 52 - 1⟩
      ⟨2 ^ 52 - 1, 2 ^ 52 - 1, 2 ^ 52 - 1, 2 ^ 52 - 1, 2 ^ 52 - 1⟩).any (fun f => decide (f.val < edL)) = false ∧
    Sc.add ⟨2 ^ 63, 0, 0, 0, 0⟩ ⟨2 ^ 63, 0, 0, 0, 0⟩ = none ∧ Sc.montMul ⟨0, 2 ^ 64 - 1, 0, 0, 0⟩ ⟨2 ^ 64 - 1, 2 ^ 64 - 1, 0, 0, 0⟩ = none := by
  refine ⟨?_, ?_, ?_⟩ <;> decide +kernel

/-- **C132.** Signing, single and batch verification with field elements and scalars in limbs never overflow and are the functions of the
model, for all inputs and all weights of 128 bits. -/
theorem C132 (sha : List UInt8 → Bytes 64) (zs : List (List UInt8) → List (Bytes 64) → List (Bytes 32) → ℕ → ℕ)
    (hz : ∀ ms ss ks i, zs ms ss ks i < 2 ^ 128) :
    (∀ b msg, signS Limb sha b msg = some (((ed25519 sha).ops zs).sign b msg)) ∧
    (∀ pk msg sig, strictS Limb sha pk msg sig = some (((ed25519 sha).ops zs).verifyStrict pk msg sig)) ∧
    (∀ ms ss ks, batchS Limb sha (zs ms ss ks) ms ss ks = some (((ed25519 sha).ops zs).verifyBatch ms ss ks)) := by
  rw [← C131 sha zs hz]
  exact ⟨signS_eq sha zs, strictS_eq sha, fun ms ss ks => batchS_eq sha (fun i => (hz ms ss ks i).trans (by norm_num)) ms ss ks⟩

/-- What is signed in limbs verifies in limbs, and nothing fails on the way. -/
example (seed : Bytes 32) (msg : List UInt8) :
    let pk := (EdProj.ops Limb Toy.five fun _ _ _ _ => 1).derivePk seed
    (signS Limb Toy.five (Bytes.append32 seed pk) msg >>= strictS Limb Toy.five pk msg) = some true := by
  have hz : ∀ (_ : List (List UInt8)) (_ : List (Bytes 64)) (_ : List (Bytes 32)) (_ : ℕ), 1 < 2 ^ 128 := fun _ _ _ _ => by norm_num
  have h := C132 Toy.five (fun _ _ _ _ => 1) hz
  simp only [C131 Toy.five (fun _ _ _ _ => 1) hz]
  rw [Sc.bind_eq (h.1 _ _), h.2.1]
  refine congrArg some (((C97 _ (C100 Toy.five)).2 fun _ _ => ?_).verifies seed msg)
  have hn : EdCurve.wide ⟨Codec.leBytes 64 5, Codec.length_leBytes _ _⟩ ≠ 0 := by decide +kernel
  rwa [EdCurve.nonce, show (ed25519 Toy.five).sha512 = Toy.five by rw [ed25519], Toy.five]

end Verif
