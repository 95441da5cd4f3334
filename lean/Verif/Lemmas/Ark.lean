import Verif.Model.Ark

/-!
# Lemmas: the wire format of BLS12-381
-/

namespace Verif

open WeierstrassCurve

/-- Round trip, fixed size, and an order that separates `y` from `-y`. -/
structure FieldWire.Good {F : Type} [Field F] (w : FieldWire F) (n : ℕ) : Prop where
  dec_enc : ∀ x fl rest, fl ≤ 2 → w.dec (w.enc x fl ++ rest) = .ok (x, fl, rest)
  size : ∀ x fl, (w.enc x fl).length = n
  total : ∀ y : F, y ≠ -y → w.lt y (-y) ∨ w.lt (-y) y
  asymm : ∀ y z : F, w.lt y z → ¬ w.lt z y

theorem blsP_lt : blsP < 2 ^ 382 := by decide +kernel
theorem pow_lt_bytes : 2 ^ 382 + 2 ^ 382 * 2 < 256 ^ 48 := by decide +kernel

theorem wireFq_good : wireFq.Good 48 where
  dec_enc x fl rest hfl := by
    have hx : x.val < blsP := ZMod.val_lt x
    have hv : x.val + 2 ^ 382 * fl < 256 ^ 48 :=
      lt_of_lt_of_le (Nat.add_lt_add_right (hx.trans blsP_lt) _)
        ((Nat.add_le_add_left (Nat.mul_le_mul_left _ hfl) _).trans pow_lt_bytes.le)
    have hm : (x.val + 2 ^ 382 * fl) % 2 ^ 382 = x.val := by
      rw [Nat.add_mul_mod_self_left, Nat.mod_eq_of_lt (hx.trans blsP_lt)]
    have hd : (x.val + 2 ^ 382 * fl) / 2 ^ 382 = fl := by
      rw [Nat.add_mul_div_left _ _ (by positivity), Nat.div_eq_of_lt (hx.trans blsP_lt), zero_add]
    simp only [wireFq]
    rw [if_neg (by simp), List.take_left' (by simp), List.drop_left' (by simp), Codec.leVal_leBytes _ _ hv, hm, hd,
      if_neg (by omega), if_pos hx, ZMod.natCast_zmod_val]
  size x fl := Codec.length_leBytes _ _
  total y hy := by
    simp only [wireFq]
    rcases lt_trichotomy y.val (-y).val with h | h | h
    · exact .inl h
    · exact absurd (ZMod.val_injective _ h) hy
    · exact .inr h
  asymm y z h := by
    simp only [wireFq] at h ⊢
    omega

theorem wireFq2_good : wireFq2.Good 96 where
  dec_enc x fl rest hfl := by
    have hx : x.re.val < blsP := ZMod.val_lt _
    have hv : x.re.val < 256 ^ 48 := hx.trans (blsP_lt.trans (by decide +kernel))
    simp only [wireFq2]
    rw [List.append_assoc, if_neg (by simp), List.take_left' (by simp), List.drop_left' (by simp), Codec.leVal_leBytes _ _ hv,
      if_pos hx, wireFq_good.dec_enc _ _ _ hfl, ZMod.natCast_zmod_val]
    rfl
  size x fl := by
    simp only [wireFq2, List.length_append, Codec.length_leBytes, wireFq_good.size]
  total y hy := by
    simp only [wireFq2]
    rcases lt_trichotomy y.im.val (-y).im.val with h | h | h
    · exact .inl (.inl h)
    · have h1 := ZMod.val_injective _ h
      rcases lt_trichotomy y.re.val (-y).re.val with h' | h' | h'
      · exact .inl (.inr ⟨h1, h'⟩)
      · exact absurd (QuadraticAlgebra.ext (ZMod.val_injective _ h') h1) hy
      · exact .inr (.inr ⟨h1.symm, h'⟩)
    · exact .inr (.inl h)
  asymm y z h := by
    simp only [wireFq2] at h ⊢
    rintro (h' | ⟨h1, h'⟩)
    · rcases h with h | ⟨h, _⟩
      · omega
      · rw [h] at h'; omega
    · rcases h with h | ⟨_, h⟩
      · rw [h1] at h; omega
      · omega

theorem pointCodec_lawful {F : Type} [Field F] [DecidableEq F] {w : FieldWire F} {n r : ℕ} (hw : w.Good n) {a b : F} :
    (pointCodec w r a b).Lawful := by
  rintro ⟨P, hP⟩ rest
  cases P with
  | zero =>
    simp only [pointCodec]
    rw [hw.dec_enc _ _ _ (by norm_num)]
    rfl
  | some x y hn =>
    have hfl : ∀ (d : Decidable (w.lt (-y) y)), (@ite ℕ (w.lt (-y) y) d 2 0) ≤ 2 := by intro d; split <;> norm_num
    simp only [pointCodec]
    rw [hw.dec_enc _ _ _ (hfl _)]
    simp only [Res.bind_ok']
    rw [if_neg (by split <;> norm_num)]
    have hs : ∃ y, y ^ 2 = x ^ 3 + a * x + b := ⟨y, sw_equation.1 hn.1⟩
    rw [dif_pos hs]
    have hc : hs.choose = y ∨ hs.choose = -y := by
      apply sq_eq_sq_iff_eq_or_eq_neg.1
      rw [hs.choose_spec, sw_equation.1 hn.1]
    have hpick : ∀ (d : Decidable (w.lt (-y) y)) (d' : Decidable (Xor (w.lt hs.choose (-hs.choose)) ((if w.lt (-y) y then 2 else 0) = 2))),
        @ite F (Xor (w.lt hs.choose (-hs.choose)) ((if w.lt (-y) y then 2 else 0) = 2)) d' hs.choose (-hs.choose) = y := by
      intro d d'
      by_cases hyy : y = -y
      · have h : hs.choose = y := hc.elim id fun h => h.trans hyy.symm
        by_cases hx : Xor (w.lt hs.choose (-hs.choose)) ((if w.lt (-y) y then 2 else 0) = 2)
        · rw [if_pos hx, h]
        · rw [if_neg hx, h]; exact hyy.symm
      rcases hc with h | h
      · rw [if_pos, h]
        rw [h]
        by_cases h2 : w.lt (-y) y
        · exact .inr ⟨by simp [h2], hw.asymm _ _ h2⟩
        · exact .inl ⟨(hw.total y hyy).resolve_right h2, by simp [h2]⟩
      · rw [if_neg, h, neg_neg]
        rw [h, neg_neg]
        by_cases h2 : w.lt (-y) y <;> simp [Xor, h2]
    have key : ∀ z (hz : z = y) (d : Decidable (∃ hn : (swCurve a b).Nonsingular x z, r • Affine.Point.some x z hn = 0)),
        (@dite (Res SerError (torsion r (swCurve a b).Point × List UInt8))
          (∃ hn : (swCurve a b).Nonsingular x z, r • Affine.Point.some x z hn = 0) d
          (fun h => .ok (⟨.some x z h.1, h.2⟩, rest)) fun _ => .err .invalidData) = .ok (⟨.some x y hn, hP⟩, rest) := by
      rintro z rfl d
      rw [dif_pos ⟨hn, hP⟩]
    exact key _ (hpick _ _) _

theorem pointCodec_fixed {F : Type} [Field F] [DecidableEq F] {w : FieldWire F} {n r : ℕ} (hw : w.Good n) {a b : F} :
    (pointCodec w r a b).Fixed n := by
  rintro ⟨P, hP⟩
  cases P <;> exact hw.size _ _

theorem blsR_lt : blsR < 256 ^ 32 := by decide +kernel

theorem arkFr_lawful : arkFr.Lawful := Toy.frCodec_lawful blsR blsR_lt

theorem arkFr_fixed : arkFr.Fixed 32 := fun _ => Codec.length_leBytes _ _

/-! ### one encoding per point, except for infinity -/

theorem wireFq_canonical {l rest : List UInt8} {x : BlsFq} {fl : ℕ} (h : wireFq.dec l = .ok (x, fl, rest)) :
    l = wireFq.enc x fl ++ rest ∧ fl < 3 := by
  simp only [wireFq] at h ⊢
  split at h
  · cases h
  · rename_i hl
    rw [not_lt] at hl
    split at h
    · cases h
    · rename_i h3
      split at h
      · rename_i hlt
        obtain ⟨rfl, rfl, rfl⟩ : _ = x ∧ _ = fl ∧ _ = rest := by simpa using h
        have hb := Codec.leVal_lt (l.take 48)
        rw [List.length_take, Nat.min_eq_left hl] at hb
        refine ⟨?_, ?_⟩
        · rw [ZMod.val_natCast_of_lt hlt, Nat.mod_add_div]
          conv_lhs => rw [← List.take_append_drop 48 l]
          congr 1
          have := Codec.leBytes_leVal (l.take 48)
          rw [List.length_take, Nat.min_eq_left hl] at this
          exact this.symm
        · have : Codec.leVal (l.take 48) / 2 ^ 382 < 4 := by
            rw [Nat.div_lt_iff_lt_mul (by positivity)]
            exact lt_of_lt_of_eq hb (by decide +kernel)
          omega
      · cases h

theorem wireFq2_canonical {l rest : List UInt8} {x : BlsFq2} {fl : ℕ} (h : wireFq2.dec l = .ok (x, fl, rest)) :
    l = wireFq2.enc x fl ++ rest ∧ fl < 3 := by
  simp only [wireFq2] at h ⊢
  split at h
  · cases h
  · rename_i hl
    rw [not_lt] at hl
    split at h
    · rename_i hlt
      cases hd : wireFq.dec (l.drop 48) with
      | ok v =>
        rw [hd] at h
        obtain ⟨y, f, rs⟩ := v
        obtain ⟨rfl, rfl, rfl⟩ : _ = x ∧ _ = fl ∧ _ = rest := by simpa using h
        obtain ⟨h1, h2⟩ := wireFq_canonical hd
        refine ⟨?_, h2⟩
        rw [List.append_assoc, ← h1]
        conv_lhs => rw [← List.take_append_drop 48 l]
        congr 1
        have := Codec.leBytes_leVal (l.take 48)
        rw [List.length_take, Nat.min_eq_left hl] at this
        simp only [ZMod.val_natCast_of_lt hlt]
        exact this.symm
      | err e => rw [hd] at h; cases h
      | panic => rw [hd] at h; cases h
      | diverge => rw [hd] at h; cases h
    · cases h

theorem pointCodec_canonical {F : Type} [Field F] [DecidableEq F] {w : FieldWire F} {n r : ℕ} (hw : w.Good n)
    (hc : ∀ l x fl rest, w.dec l = .ok (x, fl, rest) → l = w.enc x fl ++ rest ∧ fl < 3) (hr : r % 2 = 1) {a b : F}
    {l rest : List UInt8} {P : torsion r (swCurve a b).Point} (h : (pointCodec w r a b).dec l = .ok (P, rest)) (hP : P ≠ 0) :
    l = (pointCodec w r a b).enc P ++ rest := by
  simp only [pointCodec] at h
  cases hd : w.dec l with
  | ok v =>
    obtain ⟨x, fl, rs⟩ := v
    obtain ⟨h1, h3⟩ := hc _ _ _ _ hd
    rw [hd] at h
    simp only [Res.bind_ok'] at h
    by_cases hf : fl = 1
    · rw [if_pos hf] at h
      obtain ⟨h4, -⟩ : 0 = P ∧ rs = rest := by simpa using h
      exact absurd h4.symm hP
    rw [if_neg hf] at h
    by_cases hs : ∃ y, y ^ 2 = x ^ 3 + a * x + b
    · rw [dif_pos hs] at h
      obtain ⟨y, hy, hn, ht, rfl, rfl⟩ : ∃ y, (Xor (w.lt hs.choose (-hs.choose)) (fl = 2) ∧ y = hs.choose ∨
          ¬ Xor (w.lt hs.choose (-hs.choose)) (fl = 2) ∧ y = -hs.choose) ∧
          ∃ (hn : (swCurve a b).Nonsingular x y) (ht : r • Affine.Point.some x y hn = 0), P = ⟨.some x y hn, ht⟩ ∧ rs = rest := by
        have key : ∀ z (d : Decidable (∃ hn : (swCurve a b).Nonsingular x z, r • Affine.Point.some x z hn = 0)),
            (@dite (Res SerError (torsion r (swCurve a b).Point × List UInt8))
              (∃ hn : (swCurve a b).Nonsingular x z, r • Affine.Point.some x z hn = 0) d
              (fun h => .ok (⟨.some x z h.1, h.2⟩, rs)) fun _ => .err .invalidData) = .ok (P, rest) →
            ∃ (hn : (swCurve a b).Nonsingular x z) (ht : r • Affine.Point.some x z hn = 0), P = ⟨.some x z hn, ht⟩ ∧ rs = rest := by
          intro z d h
          by_cases hz : ∃ hn : (swCurve a b).Nonsingular x z, r • Affine.Point.some x z hn = 0
          · rw [dif_pos hz] at h
            obtain ⟨h4, h5⟩ := Prod.mk.inj (Res.ok.inj h)
            exact ⟨hz.1, hz.2, h4.symm, h5⟩
          · rw [dif_neg hz] at h
            cases h
        refine ⟨_, ?_, key _ _ h⟩
        by_cases hx : Xor (w.lt hs.choose (-hs.choose)) (fl = 2)
        · exact .inl ⟨hx, if_pos hx⟩
        · exact .inr ⟨hx, if_neg hx⟩
      have hyy : y ≠ -y := by
        intro hyy
        apply hP
        have hneg : Affine.Point.some x y hn + Affine.Point.some x y hn = 0 := by
          apply Affine.Point.add_of_Y_eq rfl
          simpa [Affine.negY, swCurve] using hyy
        have hodd : r = 2 * (r / 2) + 1 := by omega
        have ht' := ht
        rw [hodd, add_smul, mul_comm, mul_smul, two_smul, hneg, smul_zero, zero_add, one_smul] at ht'
        exact Subtype.ext ht'
      have hfl : ∀ d : Decidable (w.lt (-y) y), fl = @ite ℕ (w.lt (-y) y) d 2 0 := by
        intro d
        rcases hy with ⟨hx, hy⟩ | ⟨hx, hy⟩
        · rw [← hy] at hx
          rcases hx with ⟨h4, h5⟩ | ⟨h4, h5⟩
          · rw [if_neg (hw.asymm _ _ h4)]; omega
          · rw [if_pos ((hw.total y hyy).resolve_left h5), h4]
        · rw [show hs.choose = -y by rw [hy, neg_neg], neg_neg] at hx
          by_cases h4 : w.lt (-y) y
          · rw [if_pos h4]
            by_contra h5
            exact hx (.inl ⟨h4, h5⟩)
          · rw [if_neg h4]
            have h5 : fl ≠ 2 := fun h5 => hx (.inr ⟨h5, h4⟩)
            omega
      rw [h1]
      exact congrArg (fun f => w.enc x f ++ rs) (hfl _)
    · rw [dif_neg hs] at h
      cases h
  | err e => rw [hd] at h; cases h
  | panic => rw [hd] at h; cases h
  | diverge => rw [hd] at h; cases h

end Verif
