import Verif.Lemmas.EdCoord
import Verif.Props.Cofactor

/-!
# C130: EdDSA computed in coordinates
-/

namespace Verif

open WeierstrassCurve EdProj
open Spec (DenExt digits)

/-- **C130** (coordinates). The operations on extended coordinates denote those of the group, `==`, `is_identity` and
`is_small_order` decide what they say, the compressed bytes are those of the point, and decompression fails for the same bytes and
gives coordinates of the same point. -/
theorem C130_points :
    (DenExt Ext.id 0 ∧ DenExt Ext.base edBase) ∧
    (∀ {e f : Ext EdF} {P Q : edW.Point}, DenExt e P → DenExt f Q →
      DenExt (e.add f) (P + Q) ∧ DenExt e.double (2 • P) ∧ DenExt e.neg (-P) ∧ (∀ k > 0, DenExt (e.mulByPow2 k) (2 ^ k • P)) ∧
      (e.eq f = true ↔ P = Q) ∧ (e.isId = true ↔ P = 0) ∧ (e.isSmallOrder = true ↔ 8 • P = 0) ∧ e.compress = edCompress P) ∧
    (∀ b : Bytes 32, (∃ (e : Ext EdF) (P : _), Ext.decompress b = some e ∧ edDecompress b = some P ∧ DenExt e P) ∨
      ((Ext.decompress b : Option (Ext EdF)) = none ∧ edDecompress b = none)) := by
  refine ⟨⟨denExt_id, denExt_base⟩, fun {e f P Q} h h' => ⟨h.add h', ?_, h.neg, fun k hk => h.mulByPow2 hk, h.eq_iff h', h.isId_iff, ?_,
    h.compress⟩, decompress_spec⟩
  · rw [two_nsmul]
    exact h.double
  · rw [h.isSmallOrder, EdCurve.smallOrder, decide_eq_true_iff]

/-- **C130** (table entries). Adding and subtracting the projective and the affine table entry of a point, its negative and the entry of
the identity. -/
theorem C130_entries {e f : Ext EdF} {P Q : edW.Point} (h : DenExt e P) (h' : DenExt f Q) :
    DenExt (e.addN f.toNiels).toExt (P + Q) ∧ DenExt (e.subN f.toNiels).toExt (P - Q) ∧
    DenExt (e.addN f.toNiels.neg).toExt (P - Q) ∧ DenExt (e.addN Niels.id).toExt P ∧
    DenExt (e.addA f.toANiels).toExt (P + Q) ∧ DenExt (e.subA f.toANiels).toExt (P - Q) ∧
    DenExt (e.addA f.toANiels.neg).toExt (P - Q) ∧ DenExt (e.addA ANiels.id).toExt P := by
  have hid : DenNiels Niels.id 0 := by
    rw [DenNiels, toEd_zero]
    simp [Niels.id]
  refine ⟨(h.addN h'.toNiels).toExt, (h.subN h'.toNiels).toExt, ?_, ?_, (h.addA h'.toANiels).toExt, (h.subA h'.toANiels).toExt, ?_, ?_⟩
  · rw [sub_eq_add_neg]
    exact (h.addN h'.toNiels.neg).toExt
  · have := (h.addN hid).toExt
    rwa [add_zero] at this
  · rw [sub_eq_add_neg]
    exact (h.addA h'.toANiels.neg).toExt
  · have := (h.addA denANiels_id).toExt
    rwa [add_zero] at this

/-- The base point less its table entries is the identity. -/
example : DenExt ((Ext.base : Ext EdF).addN Ext.base.toNiels.neg).toExt 0 ∧ DenExt ((Ext.base : Ext EdF).subA Ext.base.toANiels).toExt 0 := by
  have h := C130_entries C130_points.1.2 C130_points.1.2
  rw [sub_self] at h
  exact ⟨h.2.2.1, h.2.2.2.2.2.1⟩

/-- **C130** (digits). The signed digits of a scalar below `2^255` stand for the scalar, there are as many as the loops read, and each
is in the range of its table. -/
theorem C130_digits {x : ℕ} (hx : x < 2 ^ 255) :
    (∀ w, 2 ≤ w → digits 2 (naf w x) = x ∧ (naf w x).length = 256 ∧
      ∀ d ∈ naf w x, d = 0 ∨ d % 2 = 1 ∧ d.natAbs / 2 < 2 ^ (w - 2)) ∧
    (digits 16 (radix16 x) = x ∧ (radix16 x).length = 64 ∧ ∀ d ∈ radix16 x, d.natAbs ≤ 8) ∧
    (∀ w, w = 6 ∨ w = 7 ∨ w = 8 → digits (2 ^ w) (radix2w w x) = x ∧
      (radix2w w x).length = (256 + w - 1) / w + (if w = 8 then 1 else 0) ∧ ∀ d ∈ radix2w w x, d.natAbs ≤ 2 ^ w / 2) := by
  refine ⟨fun w hw => ?_, ?_, fun w hw => ?_⟩
  · obtain ⟨h1, h2, h3⟩ := naf_spec hw hx
    refine ⟨h1, h3, fun d hd => ?_⟩
    rcases h2 d hd with h | ⟨h, h'⟩
    · exact .inl h
    · refine .inr ⟨h, Nat.div_lt_of_lt_mul ?_⟩
      rwa [← pow_succ', show w - 2 + 1 = w - 1 by omega]
  · obtain ⟨h1, h2, h3⟩ := radix16_spec hx
    exact ⟨h1, h3, h2⟩
  · obtain ⟨h1, h2, h3⟩ := radix2w_spec hw hx
    exact ⟨h1, h3, h2⟩

/-- **C130** (multiples). Multiplication with the table of the base point, the double product of `verify_strict` and the two algorithms
for many points denote the sums of multiples. -/
theorem C130_mul :
    (∀ x < 2 ^ 255, DenExt (mulBase x) (x • edBase)) ∧
    (∀ a < 2 ^ 255, ∀ b < 2 ^ 255, ∀ {A : Ext EdF} {P : edW.Point}, DenExt A P → DenExt (doubleBase a A b) (a • P + b • edBase)) ∧
    (∀ {l : List (ℕ × Ext EdF)} {l' : List (ℕ × edW.Point)},
      List.Forall₂ (fun p q => p.1 = q.1 ∧ p.1 < 2 ^ 255 ∧ DenExt p.2 q.2) l l' →
      DenExt (straus l) (l'.map fun p => p.1 • p.2).sum ∧ DenExt (pippenger l) (l'.map fun p => p.1 • p.2).sum) :=
  ⟨fun _ h => rep_exact.1 (mulBase_spec h), fun _ ha _ hb _ _ hA => rep_exact.1 (doubleBase_spec ha hb (rep_exact.2 hA)), fun h => by
    have h' : List.Forall₂ (DenPair (F := EdF)) _ _ := h.imp fun p q hpq => ⟨hpq.1, hpq.2.1, rep_exact.2 hpq.2.2⟩
    exact ⟨rep_exact.1 (straus_spec h'), rep_exact.1 (pippenger_spec h')⟩⟩

/-- The scalar 1234567 has five non-zero digits of width 5; the digits of the largest scalar end with a carry. -/
example : (naf 5 1234567).take 21 = [7, 0, 0, 0, 0, 0, 0, 13, 0, 0, 0, 0, 13, 0, 0, 0, 0, 9, 0, 0, 0] ∧
    7 + 13 * 2 ^ 7 + 13 * 2 ^ 12 + 9 * 2 ^ 17 = 1234567 ∧
    (radix16 (edL - 1)).take 5 = [-4, -1, 4, -3, 6] ∧ (radix2w 6 (edL - 1)).getLast? = some 1 ∧
    (radix2w 8 (2 ^ 254 + 2 ^ 253 - 1)).head? = some (-1) := by
  decide +kernel

/-- The base point times its order is the identity, also in coordinates; the base point is not of small order, but is so after
multiplication by the order; and `3 B + (L - 3) B` is the identity. -/
example : (mulBase edL : Ext EdF).isId = true ∧ (Ext.base : Ext EdF).isSmallOrder = false ∧
    (mulBase edL : Ext EdF).isSmallOrder = true ∧
    (doubleBase 3 (Ext.base : Ext EdF) (edL - 3)).isId = true ∧
    ((Ext.base : Ext EdF).add Ext.base).eq Ext.base.double = true := by
  have hL : DenExt (mulBase edL) 0 := by
    have h := C130_mul.1 edL (by decide +kernel)
    rwa [edBase_order] at h
  have hb : DenExt Ext.base edBase := C130_points.1.2
  refine ⟨(C130_points.2.1 hL hL).2.2.2.2.2.1.2 rfl, ?_, (C130_points.2.1 hL hL).2.2.2.2.2.2.1.2 (nsmul_zero _), ?_, ?_⟩
  · rw [Bool.eq_false_iff, Ne, (C130_points.2.1 hb hb).2.2.2.2.2.2.1]
    intro h
    have h' : (ed25519 Toy.five).base = edBase := by rw [ed25519]
    rw [← h', (C100 Toy.five).smul_eq_zero] at h
    exact absurd h (by decide +kernel)
  · have h := C130_mul.2.1 3 (by norm_num) (edL - 3) (by decide +kernel) hb
    rw [← add_nsmul, show 3 + (edL - 3) = edL by decide +kernel, edBase_order] at h
    exact (C130_points.2.1 h h).2.2.2.2.2.1.2 rfl
  · exact ((C130_points.2.1 (C130_points.2.1 hb hb).1 (C130_points.2.1 hb hb).2.1).2.2.2.2.1).2 (two_nsmul _).symm

/-- **C130.** Key derivation, signing, the tests on keys and signatures, single and batch verification of `ed25519_dalek`, computed in
coordinates with signed digits and tables, are the functions of the model, for all inputs and all weights of 128 bits. -/
theorem C130 (sha : List UInt8 → Bytes 64) (zs : List (List UInt8) → List (Bytes 64) → List (Bytes 32) → ℕ → ℕ)
    (hz : ∀ ms ss ks i, zs ms ss ks i < 2 ^ 128) : EdProj.ops EdF sha zs = (ed25519 sha).ops zs :=
  ops_eq EdF sha zs hz

/-- What is signed in coordinates verifies in coordinates. -/
example (seed : Bytes 32) (msg : List UInt8) :
    let ops := EdProj.ops EdF Toy.five fun _ _ _ _ => 1
    ops.verifyStrict (ops.derivePk seed) msg (ops.sign (Bytes.append32 seed (ops.derivePk seed)) msg) = true := by
  simp only [C130 Toy.five (fun _ _ _ _ => 1) (fun _ _ _ _ => by norm_num)]
  refine ((C97 _ (C100 Toy.five)).2 fun _ _ => ?_).verifies seed msg
  have hn : EdCurve.wide ⟨Codec.leBytes 64 5, Codec.length_leBytes _ _⟩ ≠ 0 := by decide +kernel
  rwa [EdCurve.nonce, show (ed25519 Toy.five).sha512 = Toy.five by rw [ed25519], Toy.five]

end Verif
