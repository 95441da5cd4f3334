import Verif.Props.Primitives
import Verif.Props.HashGroup
import Verif.Props.TestsPvss

/-!
# The epoch generator of the tests: C115
-/

namespace Verif

open WeierstrassCurve

/-! ### reading the stream block by block -/

theorem quarter_length (v : List UInt32) (a b c d : ℕ) : (ChaCha.quarter v a b c d).length = v.length := by
  simp only [ChaCha.quarter, List.length_set]

theorem double_length (v : List UInt32) : (ChaCha.double v).length = v.length := by
  simp only [ChaCha.double, quarter_length]

theorem chacha_block_length {key : List UInt32} (hk : key.length = 8) (c : UInt64) : (ChaCha.block key c).length = 16 := by
  have hs : (ChaCha.start key c).length = 16 := by simp [ChaCha.start, hk]
  have hd : ∀ n v, (ChaCha.double^[n] v).length = v.length := by
    intro n
    induction n with
    | zero => intro v; rfl
    | succ n ih => intro v; rw [Function.iterate_succ_apply, ih, double_length]
  rw [ChaCha.block, List.length_zipWith, hd, hs, min_self]

/-- A window of `16 n` bytes consists of the lowest bytes of the words of `n` blocks. -/
theorem window_blocks {key : List UInt32} (hk : key.length = 8) (n k : ℕ) : Spec.window (ChaCha.byte key) (16 * n) k =
    (List.range n).flatMap fun i => (ChaCha.block key (UInt64.ofNat (n * k + i))).map UInt32.toUInt8 := by
  have h16 : ∀ c, (ChaCha.block key (UInt64.ofNat c)).map UInt32.toUInt8 = (List.range 16).map fun j => ChaCha.byte key (16 * c + j) := by
    intro c
    refine List.ext_getElem (by simp [chacha_block_length hk]) fun j h1 h2 => ?_
    have hj : j < 16 := by simpa using h2
    have hb : j < (ChaCha.block key (UInt64.ofNat c)).length := by rw [chacha_block_length hk]; exact hj
    rw [List.getElem_map, List.getElem_map, List.getElem_range, ChaCha.byte, ChaCha.word, show (16 * c + j) / 16 = c by omega,
      show (16 * c + j) % 16 = j by omega, List.getD_eq_getElem?_getD, List.getElem?_eq_getElem hb]
    rfl
  simp only [h16]
  have key' : ∀ (f : ℕ → UInt8) (a : ℕ), (List.range (16 * n)).map (fun j => f (16 * a + j)) =
      (List.range n).flatMap fun i => (List.range 16).map fun j => f (16 * (a + i) + j) := by
    intro f a
    induction n with
    | zero => rfl
    | succ n ih =>
      rw [List.range_succ (n := n), List.flatMap_append, ← ih, show 16 * (n + 1) = 16 * n + 16 by ring, List.range_add, List.map_append,
        List.map_map, List.flatMap_singleton]
      congr 1
      refine List.map_congr_left fun j _ => ?_
      rw [Function.comp_apply]
      congr 1
      ring
  rw [← key' (ChaCha.byte key) (n * k), Spec.window, List.ofFn_eq_map, ← List.map_coe_finRange_eq_range, List.map_map]
  refine List.map_congr_left fun j _ => ?_
  rw [Function.comp_apply]
  congr 1
  ring

/-! ### the generator -/

/-- The digest of the epoch. -/
def epochKey : List UInt32 := [1907357850, 2885714345, 3340587858, 596299767, 759731218, 3053446675, 1885338281, 3284533971]

theorem epoch_digest : Blake2s.hash (padPersona (ascii "OnePiece")) (2 :: List.replicate 15 0) = epochKey := by decide +kernel

/-- The bytes of attempt `k`. -/
def epochBytes (k : ℕ) : List UInt8 :=
  (List.range 6).flatMap fun i => (ChaCha.block epochKey (UInt64.ofNat (6 * k + i))).map UInt32.toUInt8

theorem epoch_raw (k : ℕ) (P : blsE2.Point) : arkRaw2.fromRandom (Spec.window (ChaCha.byte epochKey) 96 k) = some P ↔
    rawFq2 (epochBytes k) = some (pointCode wireFq2.lt P) := by
  have h := raw2_iff (fun j : Fin (48 + 48) => ChaCha.byte epochKey (96 * k + j)) P
  have e : List.ofFn (fun j : Fin (48 + 48) => ChaCha.byte epochKey (96 * k + j)) = epochBytes k := window_blocks (n := 6) rfl k
  rw [e] at h
  rw [show Spec.window (ChaCha.byte epochKey) 96 k = epochBytes k from e, h]

/-- Attempt 0 has the flag of infinity with a non-zero coordinate, attempt 1 an invalid flag, attempt 2 an unreduced coordinate. -/
theorem epoch_values :
    (Codec.leVal ((epochBytes 0).drop 48) / 2 ^ 382 = 1 ∧ Codec.leVal ((epochBytes 0).drop 48) % 2 ^ 381 ≠ 0) ∧
    Codec.leVal ((epochBytes 1).drop 48) / 2 ^ 382 = 3 ∧
    blsP ≤ Codec.leVal ((epochBytes 2).take 48) % 2 ^ 381 := by decide +kernel

def epochX : ℕ × ℕ := (0x1868cfeb5fd04c19834fb66e3191aeee91340601bbad35be14464e673608afccf0991ab7ca33ad296015f1bcb03b49a1,
  0xb8483ed65f5f0aba6436175defbb8b6afbf176d9380b38ed21596a19798d62f49f7d3e07422a30d6e9f2e29c826155)
def epochY : ℕ × ℕ := (0x37eaf1395a7e984357dd8e0d14e4cf4e8896a8c05c5c5be529cadd5d8d9f1a2f38a8bfc217c7dea0ebb5706554dd387,
  0x89dfcfc92fc9a8f8d6a59ae87999f938f8b0b02aab63e27e8c009681b7f59750e407bae5fad03383b46ed4a95d5f929)
def epochGx : ℕ × ℕ := (0xd01848fa24b4cb6f77477d6d605c79f1f40d3e8db1600a1fc76bb6c4f180088f772b167523323e16c055f89d6e50207,
  0xe9e88e3d011ef8e54a3cc2f7750b26b52b01db3af663cc8047106716dd88bbe1fa187e68ff5eda5424ec58efaec4ef9)
def epochGy : ℕ × ℕ := (0x4828220e0d5d5b2f9d22c457042acdbc48b4bfa273af01e648104dfbd2e1c66260a43122cb987ce7d0039b486ba0bd6,
  0x15255fcc6f756e3c00b98cb35cffcb5b69049e984bc0249e15b71f2e0b4676d93f99a8c0a38a83576fa3ed86deeb0457)

theorem epoch_third : Codec.leVal ((epochBytes 3).take 48) % 2 ^ 381 = epochX.1 ∧
    Codec.leVal ((epochBytes 3).drop 48) % 2 ^ 381 = epochX.2 ∧ Codec.leVal ((epochBytes 3).drop 48) / 2 ^ 382 = 0 := by decide +kernel


theorem rawFq2_values {l : List UInt8} (hl : l.length = 96) (x : BlsFq2) (fl : ℕ) : rawFq2 l = some (x, fl) ↔
    Codec.leVal (l.take 48) % 2 ^ 381 = x.re.val ∧ fl ≠ 3 ∧ Codec.leVal (l.drop 48) / 2 ^ 382 = fl ∧
      Codec.leVal (l.drop 48) % 2 ^ 381 = x.im.val := by
  rw [← rawFq_iff, ← rawFq0_iff]
  unfold rawFq2
  rw [hl]
  cases h0 : rawFq0 (l.take 48) with
  | none => simp
  | some c0 =>
    cases h1 : rawFq (l.drop 48) with
    | none => simp
    | some c1 =>
      obtain ⟨c1, f1⟩ := c1
      simp only [Option.some.injEq, Prod.mk.injEq]
      constructor
      · rintro ⟨rfl, rfl⟩; exact ⟨rfl, rfl, rfl⟩
      · rintro ⟨rfl, rfl, rfl⟩; exact ⟨rfl, rfl⟩

theorem epochBytes_length (k : ℕ) : (epochBytes k).length = 96 := by
  rw [epochBytes, ← window_blocks (n := 6) rfl k, Spec.window, List.length_ofFn]

/-- The test that `n` times `(u, v)` is `(s, t)`. -/
def jIs {A : Type} (o : FieldOps A) (a u v one : A) (f n : ℕ) (s t : A) : Bool :=
  match jMul o a u v one f n with
  | none => false
  | some (X, Y, Z) => o.eq X (o.mul s (o.mul Z Z)) && o.eq Y (o.mul t (o.mul Z (o.mul Z Z)))

theorem jIs_sound {F : Type} [Field F] [DecidableEq F] {A : Type} {o : FieldOps A} {φ : A → F} (ho : o.Sound φ) {a one : A} {b : F}
    {u v s t : A} (h1 : φ one = 1) (huv : (swCurve (φ a) b).Nonsingular (φ u) (φ v)) {f n : ℕ} (h : jIs o a u v one f n s t = true) :
    ∃ hst : (swCurve (φ a) b).Nonsingular (φ s) (φ t), n • Affine.Point.some _ _ huv = .some _ _ hst := by
  rw [jIs] at h
  split at h
  · cases h
  · rename_i X Y Z e
    rw [Bool.and_eq_true] at h
    obtain ⟨hz, x, y, hxy, hq, hX, hY⟩ := jMul_rep ho h1 huv f _ _ e
    have e1 := ho.eq _ _ h.1
    have e2 := ho.eq _ _ h.2
    simp only [ho.mul] at e1 e2 hX hY hz
    have hx : x = φ s := by
      apply mul_right_cancel₀ (pow_ne_zero 2 hz)
      rw [← hX, e1]
      ring
    have hy : y = φ t := by
      apply mul_right_cancel₀ (pow_ne_zero 3 hz)
      rw [← hY, e2]
      ring
    subst hx hy
    exact ⟨hxy, hq⟩

theorem epoch_on : (swCurve 0 blsB2).Nonsingular (toFq2 epochX) (toFq2 epochY) := onCurve2_sound (by decide +kernel)

theorem epoch_mul : ∃ h : (swCurve 0 blsB2).Nonsingular (toFq2 epochGx) (toFq2 epochGy),
    blsH2 • Affine.Point.some _ _ epoch_on = Affine.Point.some _ _ h := by
  have h := jIs_sound (b := blsB2) (a := (0, 0)) (u := epochX) (v := epochY) (s := epochGx) (t := epochGy) (f := 512) (n := blsH2)
    opsP2_sound toFq2_one (by rw [toFq2_zero]; exact epoch_on) (by decide +kernel)
  simp only [toFq2_zero] at h
  exact h

theorem epoch_none (k : ℕ) (h : ∀ P : blsE2.Point, rawFq2 (epochBytes k) ≠ some (pointCode wireFq2.lt P)) :
    ¬ Spec.Acceptable arkRaw2 (Spec.window (ChaCha.byte epochKey) 96 k) := by
  rintro ⟨P, hP, -⟩
  exact h P ((epoch_raw k P).1 hP)

theorem raw_bad {l : List UInt8} (hl : l.length = 96)
    (h : (Codec.leVal (l.drop 48) / 2 ^ 382 = 1 ∧ Codec.leVal (l.drop 48) % 2 ^ 381 ≠ 0) ∨ Codec.leVal (l.drop 48) / 2 ^ 382 = 3 ∨
      blsP ≤ Codec.leVal (l.take 48) % 2 ^ 381) (P : blsE2.Point) : rawFq2 l ≠ some (pointCode wireFq2.lt P) := by
  intro hP
  rw [← Prod.mk.eta (p := pointCode wireFq2.lt P), rawFq2_values hl] at hP
  obtain ⟨h1, h2, h3, h4⟩ := hP
  rcases h with ⟨a1, a2⟩ | b | c
  · rw [a1] at h3
    cases P with
    | zero => exact a2 (h4.trans ZMod.val_zero)
    | some x y h =>
      rw [pointCode] at h3
      split at h3 <;> cases h3
  · exact h2 (h3.symm.trans b)
  · rw [h1] at c
    exact absurd (ZMod.val_lt (pointCode wireFq2.lt P).1.re) (by omega)

theorem epoch_some : arkRaw2.fromRandom (Spec.window (ChaCha.byte epochKey) 96 3) = some (Affine.Point.some _ _ epoch_on) := by
  obtain ⟨h1, h2, h3⟩ := epoch_third
  have hlt : ¬ wireFq2.lt (-(toFq2 epochY)) (toFq2 epochY) := by
    have hv : (toFq2 epochY).im.val = epochY.2 := ZMod.val_natCast_of_lt (by decide +kernel)
    have hn : (-(toFq2 epochY)).im.val = blsP - epochY.2 := by
      rw [show (-(toFq2 epochY)).im = -(toFq2 epochY).im from rfl, ZMod.neg_val, hv, if_neg]
      intro h0
      have := congrArg ZMod.val h0
      rw [hv, ZMod.val_zero] at this
      revert this
      decide +kernel
    have hgt : epochY.2 < blsP - epochY.2 := by decide +kernel
    rintro (h | ⟨h, -⟩)
    · rw [hv, hn] at h
      omega
    · have := congrArg ZMod.val h
      rw [hv, hn] at this
      omega
  rw [epoch_raw, pointCode, if_neg hlt, rawFq2_values (epochBytes_length 3)]
  refine ⟨?_, by decide, h3, ?_⟩
  · rw [h1]
    exact (ZMod.val_natCast_of_lt (by decide +kernel)).symm
  · rw [h2]
    exact (ZMod.val_natCast_of_lt (by decide +kernel)).symm

/-- **C115** (epoch generator). With the hash functions written out, `hash_to_group` on the second group of BLS12-381 gives the test of
`poly.rs` its epoch generator: three attempts fail, the fourth gives this point. -/
theorem C115_epoch {ε : Type} : ∃ h : blsE2.Nonsingular (toFq2 epochGx) (toFq2 epochGy),
    (hashToGroup (arkHash blakeChaCha) arkRaw2 (ascii "OnePiece") (2 :: List.replicate 15 0) : Res ε _) =
      .ok (Affine.Point.some _ _ h) := by
  obtain ⟨h, hm⟩ := epoch_mul
  refine ⟨h, ?_⟩
  have hw := (C51_group (ε := ε) (arkHash blakeChaCha) arkRaw2 (ascii "OnePiece") (2 :: List.replicate 15 0)).2.2.1 (by decide)
    (Affine.Point.some _ _ h)
  rw [← padPersona_eq (by decide : (ascii "OnePiece").length ≤ 8)] at hw
  rw [show (arkHash blakeChaCha).stream (padPersona (ascii "OnePiece")) (2 :: List.replicate 15 0) =
    ChaCha.byte (Blake2s.hash (padPersona (ascii "OnePiece")) (2 :: List.replicate 15 0)) from rfl, epoch_digest,
    show arkRaw2.size = 96 from rfl] at hw
  refine hw.2 ⟨3, ⟨⟨_, epoch_some, ?_⟩, fun j hj => ?_⟩, _, epoch_some, hm.symm⟩
  · intro h0
    have := hm.symm.trans h0
    cases this
  · obtain ⟨a, b, c⟩ := epoch_values
    refine epoch_none j (raw_bad (epochBytes_length j) ?_)
    obtain rfl | rfl | rfl : j = 0 ∨ j = 1 ∨ j = 2 := by omega
    · exact .inl a
    · exact .inr (.inl b)
    · exact .inr (.inr c)

/-- **C115** (test). With the real hash functions the test `test_lagrange_interpolation_target_group_different_sets` panics exactly if
one of the eight drawn keys is zero. -/
theorem C115_test {K : Type} [CommMonoid K] [DecidableEq K] (pair : BlsG1 → BlsG2 → K) (shake : List UInt8 → Bytes 32) (ed : EdOps)
    (hS : PairLaws (arkSuite pair blakeChaCha shake ed)) (toG2 : blsE2.Point → BlsG2) (m : Mode) (srs : SRS BlsG1 BlsG2)
    (key : ℕ → Rng blsR) (seed : ℕ → Bytes 32) (rng : Rng blsR) :
    Spec.Returns (Tests.gtDifferentSets (arkSuite pair blakeChaCha shake ed) arkRaw2 toG2 m srs key seed rng) (∀ i < 8, key i 0 ≠ 0) := by
  obtain ⟨h, hh⟩ := C115_epoch (ε := NIZKError)
  exact C101_poly_sets _ hS arkRaw2 toG2 m (by decide +kernel) srs key seed rng _ hh

end Verif
