import Verif.Props.Bls

/-!
# The bytes of points and scalars at BLS12-381: C112

Every message is made of these bytes (C65, C111).  The statements speak of numbers and bytes only.
-/

namespace Verif

open WeierstrassCurve Codec

theorem neg_lt_iff (y : BlsFq) : (-y).val < y.val ↔ blsP < 2 * y.val := by
  have hp := y.val_lt
  rw [ZMod.neg_val]
  split
  · rename_i h; simp [h]
  · omega

/-- `x` and `y` are the coordinates of `P`. -/
def Spec.HasCoords {F : Type} [Field F] [DecidableEq F] {a b : F} {r : ℕ} (P : torsion r (swCurve a b).Point) (x y : F) : Prop :=
  ∃ h, P.1 = .some x y h

/-- `P` is infinity or has coordinates. -/
theorem coords_or {F : Type} [Field F] [DecidableEq F] {a b : F} {r : ℕ} (P : torsion r (swCurve a b).Point) :
    P = 0 ∨ P ≠ 0 ∧ ∃ x y, Spec.HasCoords P x y := by
  obtain ⟨P, hP⟩ := P
  cases P with
  | zero => exact .inl rfl
  | some x y h => exact .inr ⟨fun h' => Affine.Point.some_ne_zero _ (congrArg Subtype.val h'), x, y, h, rfl⟩

open Classical in
theorem pointCodec_enc_some {F : Type} [Field F] [DecidableEq F] {w : FieldWire F} {r : ℕ} {a b : F}
    {P : torsion r (swCurve a b).Point} {x y : F} (h : Spec.HasCoords P x y) :
    (pointCodec w r a b).enc P = w.enc x (if w.lt (-y) y then 2 else 0) := by
  obtain ⟨P, hP⟩ := P
  obtain ⟨h, rfl⟩ := h
  rfl

/-- **C112** (writing, G1). A point of G1 takes 48 bytes: `x` in little-endian order, and the most significant bit says whether
`y` is in the upper half of the field.  Infinity is 47 zero bytes and `0x40`. -/
theorem C112_g1_write (P : BlsG1) :
    (P = 0 → arkG1.codec.enc P = List.replicate 47 0 ++ [0x40]) ∧
    (∀ x y, Spec.HasCoords P x y → arkG1.codec.enc P = leBytes 48 (x.val + if blsP < 2 * y.val then 2 ^ 383 else 0)) := by
  refine ⟨?_, fun x y h => ?_⟩
  · rintro rfl
    show leBytes 48 ((0 : BlsFq).val + 2 ^ 382 * 1) = _
    rw [ZMod.val_zero]
    decide +kernel
  · show (pointCodec wireFq blsR 0 4).enc P = _
    rw [pointCodec_enc_some h]
    show leBytes 48 _ = _
    congr 2
    have h1 : wireFq.lt (-y) y ↔ blsP < 2 * y.val := neg_lt_iff y
    by_cases h2 : blsP < 2 * y.val
    · rw [if_pos h2, if_pos (h1.2 h2)]; exact (pow_succ 2 382).symm
    · rw [if_neg h2, if_neg (fun h => h2 (h1.1 h)), Nat.mul_zero]

/-- `y` is in the upper half of the quadratic extension: by its second coordinate, by the first if that is zero. -/
def Spec.upper2 (y : BlsFq2) : Prop := blsP < 2 * y.im.val ∨ y.im = 0 ∧ blsP < 2 * y.re.val

instance (y : BlsFq2) : Decidable (Spec.upper2 y) := inferInstanceAs (Decidable (_ ∨ _))

theorem neg2_lt_iff (y : BlsFq2) : wireFq2.lt (-y) y ↔ Spec.upper2 y := by
  show ((-y.im).val < y.im.val ∨ -y.im = y.im ∧ (-y.re).val < y.re.val) ↔ _
  rw [neg_lt_iff, neg_lt_iff, Spec.upper2]
  have h : -y.im = y.im ↔ y.im = 0 := by
    refine ⟨fun h => ?_, fun h => by rw [h, neg_zero]⟩
    by_contra h0
    have h2 := congrArg ZMod.val h
    rw [ZMod.neg_val, if_neg h0] at h2
    have := y.im.val_lt
    have hodd : blsP % 2 = 1 := by decide +kernel
    omega
  rw [h]

/-- **C112** (writing, G2). A point of G2 takes 96 bytes: the two coordinates of `x`, each 48 little-endian bytes, and the most
significant bit says whether `y` is in the upper half.  Infinity is 95 zero bytes and `0x40`. -/
theorem C112_g2_write (P : BlsG2) :
    (P = 0 → arkG2.codec.enc P = List.replicate 95 0 ++ [0x40]) ∧
    (∀ x y, Spec.HasCoords P x y → arkG2.codec.enc P =
      leBytes 48 x.re.val ++ leBytes 48 (x.im.val + if Spec.upper2 y then 2 ^ 383 else 0)) := by
  refine ⟨?_, fun x y h => ?_⟩
  · rintro rfl
    show leBytes 48 (0 : BlsFq).val ++ leBytes 48 ((0 : BlsFq).val + 2 ^ 382 * 1) = _
    rw [ZMod.val_zero]
    decide +kernel
  · show (pointCodec wireFq2 blsR 0 blsB2).enc P = _
    rw [pointCodec_enc_some h]
    show leBytes 48 _ ++ leBytes 48 _ = _
    congr 3
    have h1 := neg2_lt_iff y
    by_cases h2 : Spec.upper2 y
    · rw [if_pos h2, if_pos (h1.2 h2)]; exact (pow_succ 2 382).symm
    · rw [if_neg h2, if_neg (fun h => h2 (h1.1 h)), Nat.mul_zero]

theorem wireFq_one {l : List UInt8} (hl : l.length = 48) :
    (∃ x, wireFq.dec l = .ok (x, 1, [])) ↔ leVal l / 2 ^ 382 = 1 ∧ leVal l % 2 ^ 382 < blsP := by
  simp only [wireFq]
  rw [if_neg (by omega), List.take_of_length_le hl.le, List.drop_of_length_le hl.le]
  constructor
  · rintro ⟨x, h⟩
    split at h
    · cases h
    · split at h
      · rename_i h1
        exact ⟨(Prod.mk.inj (Prod.mk.inj (Res.ok.inj h)).2).1, h1⟩
      · cases h
  · rintro ⟨h1, h2⟩
    rw [h1, if_neg (by omega), if_pos h2]
    exact ⟨_, rfl⟩

theorem wireFq2_one {l : List UInt8} (hl : l.length = 96) :
    (∃ x, wireFq2.dec l = .ok (x, 1, [])) ↔
      leVal (l.take 48) < blsP ∧ leVal (l.drop 48) / 2 ^ 382 = 1 ∧ leVal (l.drop 48) % 2 ^ 382 < blsP := by
  rw [← wireFq_one (by rw [List.length_drop, hl])]
  simp only [wireFq2]
  rw [if_neg (by omega)]
  by_cases h1 : leVal (l.take 48) < blsP
  · rw [if_pos h1]
    refine ⟨?_, ?_⟩
    · rintro ⟨x, h⟩
      rw [Res.bind_eq_ok] at h
      obtain ⟨⟨y, fl, rest⟩, h2, h3⟩ := h
      obtain ⟨-, h3⟩ := Prod.mk.inj (Res.ok.inj h3)
      obtain ⟨h4, h5⟩ := Prod.mk.inj h3
      simp only at h4 h5
      subst h4 h5
      exact ⟨h1, y, h2⟩
    · rintro ⟨-, y, h⟩
      rw [h, Res.bind_ok']
      exact ⟨_, rfl⟩
  · rw [if_neg h1]
    exact ⟨fun ⟨x, h⟩ => (by cases h), fun h => absurd h.1 h1⟩

theorem pointCodec_dec_zero {F : Type} [Field F] [DecidableEq F] {w : FieldWire F} {r : ℕ} {a b : F} {l rest : List UInt8} :
    (pointCodec w r a b).dec l = .ok (0, rest) ↔ ∃ x, w.dec l = .ok (x, 1, rest) := by
  simp only [pointCodec]
  refine ⟨fun h => ?_, fun ⟨x, h⟩ => by rw [h, Res.bind_ok']; rfl⟩
  rw [Res.bind_eq_ok] at h
  obtain ⟨⟨x, fl, rs⟩, h1, h⟩ := h
  simp only at h
  have key : ∀ (Q : Prop) (d : Decidable Q) (f : Q → torsion r (swCurve a b).Point) (_ : ∀ q, f q ≠ 0), @dite _ Q d
      (fun h => Res.ok (f h, rs)) (fun _ => .err SerError.invalidData) = .ok (0, rest) → False := by
    intro Q d f hf h
    split at h
    · exact hf _ (Prod.mk.inj (Res.ok.inj h)).1
    · cases h
  split at h
  · rename_i hfl
    obtain ⟨-, rfl⟩ := Prod.mk.inj (Res.ok.inj h)
    exact ⟨x, by rw [h1, hfl]⟩
  · split at h
    · exact (key _ _ _ (fun q h' => Affine.Point.some_ne_zero _ (congrArg Subtype.val h')) h).elim
    · cases h

/-- **C112** (reading, G1). 48 bytes are read as `P` exactly if they are the bytes of `P`, or `P` is infinity, the two most
significant bits are `01` and the others are a number below `p`.  Everything else is refused. -/
theorem C112_g1_read (l : List UInt8) (hl : l.length = 48) (P : BlsG1) : arkG1.codec.dec l = .ok (P, []) ↔
    (P = 0 ∧ leVal l / 2 ^ 382 = 1 ∧ leVal l % 2 ^ 382 < blsP) ∨
    ∃ x y, Spec.HasCoords P x y ∧ leVal l = x.val + if blsP < 2 * y.val then 2 ^ 383 else 0 := by
  have hlt : ∀ x y : BlsFq, x.val + (if blsP < 2 * y.val then 2 ^ 383 else 0) < 256 ^ 48 := fun x y => by
    have h1 := x.val_lt.trans blsP_lt
    have h2 : 2 ^ 382 + 2 ^ 383 < 256 ^ 48 := by decide +kernel
    split <;> omega
  rcases coords_or P with rfl | ⟨h0, x, y, hxy⟩
  · show (pointCodec wireFq blsR 0 4).dec l = _ ↔ _
    rw [pointCodec_dec_zero, wireFq_one hl]
    refine ⟨fun h => .inl ⟨rfl, h⟩, fun h => ?_⟩
    rcases h with ⟨-, h⟩ | ⟨x, y, ⟨h, he⟩, -⟩
    · exact h
    · exact absurd he.symm (Affine.Point.some_ne_zero _)
  · have hw := (C112_g1_write P).2
    constructor
    · intro h
      have h1 := C96_canonical.1 _ _ _ h h0
      rw [List.append_nil, hw x y hxy] at h1
      exact .inr ⟨x, y, hxy, by rw [h1, leVal_leBytes _ _ (hlt x y)]⟩
    · rintro (⟨h, -⟩ | ⟨x', y', hxy', h⟩)
      · exact absurd h h0
      · have h1 := leBytes_leVal l
        rw [hl, h, ← hw x' y' hxy'] at h1
        have h2 := pointCodec_lawful (r := blsR) (a := 0) (b := 4) wireFq_good P []
        rw [List.append_nil] at h2
        rw [← h1]
        exact h2

/-- **C112** (reading, G2). -/
theorem C112_g2_read (l : List UInt8) (hl : l.length = 96) (P : BlsG2) : arkG2.codec.dec l = .ok (P, []) ↔
    (P = 0 ∧ leVal (l.take 48) < blsP ∧ leVal (l.drop 48) / 2 ^ 382 = 1 ∧ leVal (l.drop 48) % 2 ^ 382 < blsP) ∨
    ∃ x y, Spec.HasCoords P x y ∧ leVal (l.take 48) = x.re.val ∧
      leVal (l.drop 48) = x.im.val + if Spec.upper2 y then 2 ^ 383 else 0 := by
  have hlt : ∀ x y : BlsFq2, x.im.val + (if Spec.upper2 y then 2 ^ 383 else 0) < 256 ^ 48 := fun x y => by
    have h1 := x.im.val_lt.trans blsP_lt
    have h2 : 2 ^ 382 + 2 ^ 383 < 256 ^ 48 := by decide +kernel
    split <;> omega
  have hlt' : ∀ x : BlsFq, x.val < 256 ^ 48 := fun x => (x.val_lt.trans blsP_lt).trans (by decide +kernel)
  rcases coords_or P with rfl | ⟨h0, x, y, hxy⟩
  · show (pointCodec wireFq2 blsR 0 blsB2).dec l = _ ↔ _
    rw [pointCodec_dec_zero, wireFq2_one hl]
    refine ⟨fun h => .inl ⟨rfl, h⟩, fun h => ?_⟩
    rcases h with ⟨-, h⟩ | ⟨x, y, ⟨h, he⟩, -⟩
    · exact h
    · exact absurd he.symm (Affine.Point.some_ne_zero _)
  · have hw := (C112_g2_write P).2
    constructor
    · intro h
      have h1 := C96_canonical.2.1 _ _ _ h h0
      rw [List.append_nil, hw x y hxy] at h1
      refine .inr ⟨x, y, hxy, ?_, ?_⟩
      · rw [h1, List.take_left' (length_leBytes _ _), leVal_leBytes _ _ (hlt' _)]
      · rw [h1, List.drop_left' (length_leBytes _ _), leVal_leBytes _ _ (hlt x y)]
    · rintro (⟨h, -⟩ | ⟨x', y', hxy', h, h'⟩)
      · exact absurd h h0
      · have h1 := leBytes_leVal (l.take 48)
        have h1' := leBytes_leVal (l.drop 48)
        rw [List.length_take, hl, Nat.min_eq_left (by omega), h] at h1
        rw [List.length_drop, hl, h'] at h1'
        have h2 := pointCodec_lawful (r := blsR) (a := 0) (b := blsB2) wireFq2_good P []
        have h3 := hw x' y' hxy'
        rw [h1, h1', List.take_append_drop] at h3
        rw [List.append_nil] at h2
        rw [← h3]
        exact h2

/-- **C112** (scalars). A scalar is its representative below `r` in 32 little-endian bytes, and other bytes are refused. -/
theorem C112_scalar : (∀ s : ZMod blsR, arkFr.enc s = leBytes 32 s.val) ∧
    ∀ (l : List UInt8) (_ : l.length = 32) (s : ZMod blsR), arkFr.dec l = .ok (s, []) ↔ leVal l = s.val := by
  refine ⟨fun s => rfl, fun l hl s => ⟨fun h => ?_, fun h => ?_⟩⟩
  · have h1 := C96_canonical.2.2 _ _ _ h
    rw [List.append_nil] at h1
    rw [h1]
    exact leVal_leBytes _ _ (s.val_lt.trans blsR_lt)
  · have h1 := leBytes_leVal l
    rw [hl, h] at h1
    have h2 := arkFr_lawful s []
    rw [List.append_nil] at h2
    rw [← h1]
    exact h2

/-- **C112** (generator). The bytes of the generator of G1, as published for the curve (there in big-endian order). -/
theorem C112_generator : (arkG1.codec.enc arkG1.gen).reverse =
    [0x17, 0xf1, 0xd3, 0xa7, 0x31, 0x97, 0xd7, 0x94, 0x26, 0x95, 0x63, 0x8c, 0x4f, 0xa9, 0xac, 0x0f,
     0xc3, 0x68, 0x8c, 0x4f, 0x97, 0x74, 0xb9, 0x05, 0xa1, 0x4e, 0x3a, 0x3f, 0x17, 0x1b, 0xac, 0x58,
     0x6c, 0x55, 0xe8, 0x3f, 0xf9, 0x7a, 0x1a, 0xef, 0xfb, 0x3a, 0xf0, 0x0a, 0xdb, 0x22, 0xc6, 0xbb] := by
  have h := (C112_g1_write arkG1.gen).2 _ _ ⟨g1_on_curve, rfl⟩
  rw [h, ZMod.val_natCast, ZMod.val_natCast]
  decide +kernel

/-- **C112** (generator of G2). The bytes of the generator of G2, as published for the curve (there in big-endian order). -/
theorem C112_generator2 : (arkG2.codec.enc arkG2.gen).reverse =
    [0x13, 0xe0, 0x2b, 0x60, 0x52, 0x71, 0x9f, 0x60, 0x7d, 0xac, 0xd3, 0xa0, 0x88, 0x27, 0x4f, 0x65,
     0x59, 0x6b, 0xd0, 0xd0, 0x99, 0x20, 0xb6, 0x1a, 0xb5, 0xda, 0x61, 0xbb, 0xdc, 0x7f, 0x50, 0x49,
     0x33, 0x4c, 0xf1, 0x12, 0x13, 0x94, 0x5d, 0x57, 0xe5, 0xac, 0x7d, 0x05, 0x5d, 0x04, 0x2b, 0x7e,
     0x02, 0x4a, 0xa2, 0xb2, 0xf0, 0x8f, 0x0a, 0x91, 0x26, 0x08, 0x05, 0x27, 0x2d, 0xc5, 0x10, 0x51,
     0xc6, 0xe4, 0x7a, 0xd4, 0xfa, 0x40, 0x3b, 0x02, 0xb4, 0x51, 0x0b, 0x64, 0x7a, 0xe3, 0xd1, 0x77,
     0x0b, 0xac, 0x03, 0x26, 0xa8, 0x05, 0xbb, 0xef, 0xd4, 0x80, 0x56, 0xc8, 0xc1, 0x21, 0xbd, 0xb8] := by
  have h := (C112_g2_write arkG2.gen).2 _ _ ⟨onCurve2_sound g2_on_curve, rfl⟩
  have hu : ¬ Spec.upper2 (toFq2 blsG2y) := by
    rintro (h | ⟨h, -⟩)
    · simp only [toFq2, ZMod.val_natCast] at h
      exact absurd h (by decide +kernel)
    · simp only [toFq2, ZMod.natCast_eq_zero_iff] at h
      exact absurd h (by decide +kernel)
  rw [h, if_neg hu]
  simp only [toFq2, ZMod.val_natCast]
  decide +kernel

/-- Non-vacuity: the bytes of the negated generator differ in one bit; without the bit for `y` it is read as the generator. -/
example : (arkG1.codec.enc (-blsG1)).reverse.head? = some 0x97 ∧ (arkG1.codec.enc blsG1).reverse.head? = some 0x17 ∧
    arkG1.codec.dec ((arkG1.codec.enc (-blsG1)).take 47 ++ [0x17]) = .ok (blsG1, []) := by
  have hc : Spec.HasCoords (-blsG1) ((blsG1x : ℕ) : BlsFq) (-((blsG1y : ℕ) : BlsFq)) := by
    have hn : blsE1.negY ((blsG1x : ℕ) : BlsFq) ((blsG1y : ℕ) : BlsFq) = -((blsG1y : ℕ) : BlsFq) := by
      simp [Affine.negY, swCurve]
    have hs := (Affine.nonsingular_neg (W' := blsE1) _ _).2 g1_on_curve
    refine ⟨hn ▸ hs, ?_⟩
    show -(Affine.Point.some _ _ g1_on_curve) = _
    rw [Affine.Point.neg_some]
    simp only [hn]
  have h := (C112_g1_write (-blsG1)).2 _ _ hc
  have hv : (-((blsG1y : ℕ) : BlsFq)).val = blsP - blsG1y % blsP := by
    rw [ZMod.neg_val, if_neg, ZMod.val_natCast]
    rw [ZMod.natCast_eq_zero_iff]
    decide +kernel
  rw [ZMod.val_natCast, hv] at h
  refine ⟨by rw [h]; decide +kernel, (congrArg List.head? C112_generator).trans rfl, ?_⟩
  rw [C112_g1_read _ (by rw [h]; decide +kernel)]
  refine .inr ⟨_, _, ⟨g1_on_curve, rfl⟩, ?_⟩
  rw [h, ZMod.val_natCast, ZMod.val_natCast]
  decide +kernel

end Verif
