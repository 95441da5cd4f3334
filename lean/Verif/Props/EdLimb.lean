import Verif.Lemmas.EdLimb
import Verif.Props.EdCoord

/-!
# C131: EdDSA computed in limbs
-/

namespace Verif

open WeierstrassCurve EdProj
open Spec (Rep)

/-- **C131** (arithmetic). With limbs below `2^54` no operation on limbs overflows, underflows or fails an assertion; the result is the
one modulo `2^255 - 19`, with limbs small enough to go on.  The bytes of any limbs are those of the value below the modulus. -/
theorem C131_field :
    (∀ a b : Fe, a.Lt (2 ^ 54) → b.Lt (2 ^ 54) →
      (∃ f, a.mul b = some f ∧ f.Lt (2 ^ 52) ∧ f.val ≡ a.val * b.val [MOD 2 ^ 255 - 19]) ∧
      (∃ f, a.sub b = some f ∧ f.Lt (2 ^ 52) ∧ f.val + b.val ≡ a.val [MOD 2 ^ 255 - 19]) ∧
      (∃ f, a.neg = some f ∧ f.Lt (2 ^ 52) ∧ f.val + a.val ≡ 0 [MOD 2 ^ 255 - 19]) ∧
      (∀ k > 0, ∃ f, a.pow2k k = some f ∧ f.Lt (2 ^ 52) ∧ f.val ≡ a.val ^ 2 ^ k [MOD 2 ^ 255 - 19]) ∧
      (∃ f, a.square2 = some f ∧ f.Lt (2 ^ 53) ∧ f.val ≡ 2 * a.val ^ 2 [MOD 2 ^ 255 - 19])) ∧
    (∀ (a b : Fe) (A B : ℕ), a.Lt A → b.Lt B → A + B ≤ 2 ^ 64 → ∃ f, a.add b = some f ∧ f.Lt (A + B) ∧ f.val = a.val + b.val) ∧
    (∀ a : Fe, a.Lt (2 ^ 64) → ∃ l, a.toBytes = some l ∧ l.length = 32 ∧ Codec.leVal l = a.val % (2 ^ 255 - 19)) ∧
    (∀ n, (Fe.ofNat n).Lt (2 ^ 51) ∧ (Fe.ofNat n).val = n % 2 ^ 255) := by
  have cast {m n : ℕ} (h : (m : EdF) = (n : EdF)) : m ≡ n [MOD 2 ^ 255 - 19] := (ZMod.natCast_eq_natCast_iff m n edP).1 h
  refine ⟨fun a b ha hb => ⟨?_, ?_, ?_, fun k hk => ?_, ?_⟩, fun a b A B ha hb h => Fe.add_spec ha hb h, fun a ha => ?_, Fe.ofNat_spec⟩
  · obtain ⟨f, hf, hf', hv⟩ := Limb.is_mul ⟨a, rfl, ha, rfl⟩ ⟨b, rfl, hb, rfl⟩
    exact ⟨f, hf, hf'.mono (by norm_num), cast (by rw [hv, Nat.cast_mul])⟩
  · obtain ⟨f, hf, hf', k, hv⟩ := Fe.sub_spec ha hb
    rw [← edP] at hv
    exact ⟨f, hf, hf'.mono (by norm_num), cast (by rw [Nat.cast_add, Limb.cast_sub hv, sub_add_cancel])⟩
  · obtain ⟨f, hf, hf', hv⟩ := Limb.is_neg ⟨a, rfl, ha, rfl⟩
    exact ⟨f, hf, hf'.mono (by norm_num), cast (by rw [Nat.cast_add, hv, neg_add_cancel, Nat.cast_zero])⟩
  · obtain ⟨f, hf, hf', hv⟩ := Fe.pow2k_rel k hk ha rfl
    exact ⟨f, hf, hf'.mono (by norm_num), cast (by rw [hv, Nat.cast_pow])⟩
  · obtain ⟨f, hf, hf', hv⟩ := Fe.square2_rel ha rfl
    exact ⟨f, hf, hf', cast (by rw [hv, Nat.cast_mul, Nat.cast_two, Nat.cast_pow, pow_two])⟩
  · obtain ⟨f, hf, hf', hv⟩ := Fe.canon_spec ha
    refine ⟨f.pack.map UInt8.ofNat, ?_, rfl, by rw [Fe.pack_spec hf', hv]⟩
    rw [Fe.toBytes, hf]
    rfl

/-- Minus one is the square of the constant; the limbs of the modulus give zero bytes; the product of limbs of 54 bits, all ones, is
computed, but limbs of 55 bits are refused, and sums of limbs of 64 bits overflow. -/
example : (∃ f, Fe.square ⟨1718705420411056, 234908883556509, 2233514472574048, 2117202627021982, 765476049583133⟩ = some f ∧
      f.toBytes = Fe.toBytes ⟨2 ^ 51 - 20, 2 ^ 51 - 1, 2 ^ 51 - 1, 2 ^ 51 - 1, 2 ^ 51 - 1⟩) ∧
    Fe.toBytes ⟨2 ^ 51 - 19, 2 ^ 51 - 1, 2 ^ 51 - 1, 2 ^ 51 - 1, 2 ^ 51 - 1⟩ = some (List.replicate 32 0) ∧
    (Fe.mul ⟨2 ^ 54 - 1, 2 ^ 54 - 1, 2 ^ 54 - 1, 2 ^ 54 - 1, 2 ^ 54 - 1⟩ ⟨2 ^ 54 - 1, 2 ^ 54 - 1, 2 ^ 54 - 1, 2 ^ 54 - 1, 2 ^ 54 - 1⟩).isSome ∧
    Fe.mul ⟨2 ^ 54, 0, 0, 0, 0⟩ ⟨1, 0, 0, 0, 0⟩ = none ∧ Fe.add ⟨2 ^ 63, 0, 0, 0, 0⟩ ⟨2 ^ 63, 0, 0, 0, 0⟩ = none := by
  refine ⟨⟨⟨2251799813685228, 2251799813685247, 2251799813685247, 2251799813685247, 2251799813685247⟩, ?_, ?_⟩, ?_⟩ <;> decide +kernel

/-- **C131** (points). Points in limbs: the four coordinates have limbs below `2^52` that stand for extended coordinates of the point. All
operations keep this, so none of them overflows; the double product of `verify_strict` and the algorithms for many points too. -/
theorem C131_points :
    (∀ (e : Ext Limb) (P : edW.Point), Rep e P ↔ ∃ e' : Ext EdF, (Limb.Is (2 ^ 52) e.x e'.x ∧ Limb.Is (2 ^ 52) e.y e'.y ∧
      Limb.Is (2 ^ 52) e.z e'.z ∧ Limb.Is (2 ^ 52) e.t e'.t) ∧ Spec.DenExt e' P) ∧
    (Rep (Ext.id : Ext Limb) 0 ∧ Rep (Ext.base : Ext Limb) edBase) ∧
    (∀ {e f : Ext Limb} {P Q : edW.Point}, Rep e P → Rep f Q →
      Rep (e.add f) (P + Q) ∧ Rep e.double (2 • P) ∧ Rep e.neg (-P) ∧ (∀ k > 0, Rep (e.mulByPow2 k) (2 ^ k • P)) ∧
      (e.eq f = true ↔ P = Q) ∧ (e.isId = true ↔ P = 0) ∧ (e.isSmallOrder = true ↔ 8 • P = 0) ∧ e.compress = edCompress P) ∧
    (∀ b : Bytes 32, (∃ (e : Ext Limb) (P : _), Ext.decompress b = some e ∧ edDecompress b = some P ∧ Rep e P) ∨
      ((Ext.decompress b : Option (Ext Limb)) = none ∧ edDecompress b = none)) ∧
    (∀ x < 2 ^ 255, Rep (mulBase x : Ext Limb) (x • edBase)) ∧
    (∀ a < 2 ^ 255, ∀ b < 2 ^ 255, ∀ {A : Ext Limb} {P : edW.Point}, Rep A P → Rep (doubleBase a A b) (a • P + b • edBase)) ∧
    (∀ {l : List (ℕ × Ext Limb)} {l' : List (ℕ × edW.Point)},
      List.Forall₂ (fun p q => p.1 = q.1 ∧ p.1 < 2 ^ 255 ∧ Rep p.2 q.2) l l' →
      Rep (straus l) (l'.map fun p => p.1 • p.2).sum ∧ Rep (pippenger l) (l'.map fun p => p.1 • p.2).sum) := by
  refine ⟨fun _ _ => Iff.rfl, ⟨rep_id, rep_base⟩, fun {e f P Q} h h' => ⟨h.add h', ?_, h.neg, fun k hk => h.mulByPow2 hk, h.eq_iff h',
    h.isId_iff, ?_, h.compress⟩, decompress_rep, fun _ h => mulBase_spec h, fun _ ha _ hb _ _ hA => doubleBase_spec ha hb hA,
    fun h => ⟨straus_spec h, pippenger_spec h⟩⟩
  · rw [two_nsmul]
    exact h.double
  · rw [h.isSmallOrder, EdCurve.smallOrder, decide_eq_true_iff]

/-- **C131.** Key derivation, signing, the tests on keys and signatures, single and batch verification of `ed25519_dalek`, computed in
limbs, are the functions of the model, for all inputs and all weights of 128 bits. -/
theorem C131 (sha : List UInt8 → Bytes 64) (zs : List (List UInt8) → List (Bytes 64) → List (Bytes 32) → ℕ → ℕ)
    (hz : ∀ ms ss ks i, zs ms ss ks i < 2 ^ 128) : EdProj.ops Limb sha zs = (ed25519 sha).ops zs :=
  ops_eq Limb sha zs hz

/-- What is signed in limbs verifies in limbs. -/
example (seed : Bytes 32) (msg : List UInt8) :
    let ops := EdProj.ops Limb Toy.five fun _ _ _ _ => 1
    ops.verifyStrict (ops.derivePk seed) msg (ops.sign (Bytes.append32 seed (ops.derivePk seed)) msg) = true := by
  simp only [C131 Toy.five (fun _ _ _ _ => 1) (fun _ _ _ _ => by norm_num)]
  refine ((C97 _ (C100 Toy.five)).2 fun _ _ => ?_).verifies seed msg
  have hn : EdCurve.wide ⟨Codec.leBytes 64 5, Codec.length_leBytes _ _⟩ ≠ 0 := by decide +kernel
  rwa [EdCurve.nonce, show (ed25519 Toy.five).sha512 = Toy.five by rw [ed25519], Toy.five]

/-- The limbs compute: the bytes of the base point and of its double, and back. -/
example : (Ext.base : Ext Limb).compress.1 = 0x58 :: List.replicate 31 0x66 ∧
    (Ext.base : Ext Limb).double.compress.1 = [201, 163, 248, 106, 174, 70, 95, 14, 86, 81, 56, 100, 81, 15, 57, 151, 86, 31, 162, 201, 232, 94, 162, 29, 194, 41, 35, 9, 243, 205, 96, 34] ∧
    ((Ext.decompress (Ext.base : Ext Limb).double.compress : Option (Ext Limb)).any fun e => e.eq (Ext.base.add Ext.base)) = true ∧
    ((Ext.decompress ⟨Codec.leBytes 32 2, rfl⟩ : Option (Ext Limb)).isNone) = true := by
  refine ⟨?_, ?_, ?_, ?_⟩ <;> decide +kernel

end Verif
