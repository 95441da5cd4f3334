import Verif.Model.Ed25519
import Verif.Lemmas.EdAdd
import Verif.Props.Dalek
import Verif.Props.Bls

/-!
# Ed25519 meets the assumptions (C100)

The laws assumed of the curve behind EdDSA (`EdCurve.Laws`, C97–C99) hold for the curve, the base point and the compression of
points used by `ed25519_dalek`.
-/

namespace Verif

open WeierstrassCurve

variable (sha : List UInt8 → Bytes 64)

theorem EdEq.sq {x z y : EdF} (h1 : EdEq x y) (h2 : EdEq z y) : x = z ∨ x = -z := by
  rw [EdEq] at h1 h2
  have h : (1 + edD * y ^ 2) * (x ^ 2 - z ^ 2) = 0 := by linear_combination h2 - h1
  rcases mul_eq_zero.1 h with h | h
  · have hy : y ^ 2 = 1 := by linear_combination h1 + x ^ 2 * h
    have h4 : (4 : EdF) = 0 := by linear_combination (486664 : EdF) * h - edD_eq - 486664 * edD * hy
    exact absurd (show (2 : EdF) * 2 = 0 by linear_combination h4) (mul_ne_zero edF_two edF_two)
  · exact sq_eq_sq_iff_eq_or_eq_neg.1 (sub_eq_zero.1 h)

/-- The lowest bit of the negative. -/
theorem edF_neg_bit {x : EdF} (h : x ≠ 0) : (-x).val % 2 = 1 - x.val % 2 := by
  have hne : NeZero x := ⟨h⟩
  rw [ZMod.val_neg_of_ne_zero]
  have h1 := ZMod.val_lt x
  have h2 : edP % 2 = 1 := by decide +kernel
  omega

/-- The root with lowest bit 0 is unique. -/
theorem ed_root_unique {x z y : EdF} (h1 : EdEq x y) (h2 : EdEq z y) (hb : x.val % 2 = z.val % 2) : x = z := by
  rcases h1.sq h2 with h | h
  · exact h
  · by_cases hz : z = 0
    · rw [h, hz, neg_zero]
    · rw [h, edF_neg_bit hz] at hb
      omega

theorem edEquiv_symm {q : {q : EdF × EdF // EdEq q.1 q.2}} {P : edW.Point} : edEquiv.symm q = P ↔ toEd P = q.1 := by
  rw [Equiv.symm_apply_eq]
  exact ⟨fun h => (congrArg Subtype.val h).symm, fun h => Subtype.ext h.symm⟩

/-- Decompression finds the point with the given `y` and the given lowest bit of `x`. -/
theorem edDecompress_iff (b : Bytes 32) (P : edW.Point) : edDecompress b = some P ↔
    (toEd P).2 = ((Codec.leVal b.1 % 2 ^ 255 : ℕ) : EdF) ∧
      ((toEd P).1 = 0 ∨ (toEd P).1.val % 2 = Codec.leVal b.1 / 2 ^ 255) := by
  have hs : Codec.leVal b.1 / 2 ^ 255 < 2 := by
    have := Codec.leVal_lt b.1
    rw [b.2] at this
    exact Nat.div_lt_of_lt_mul (this.trans_eq (by norm_num))
  have hP := toEd_eq P
  rw [edDecompress]
  generalize Codec.leVal b.1 / 2 ^ 255 = s at hs ⊢
  generalize ((Codec.leVal b.1 % 2 ^ 255 : ℕ) : EdF) = y
  rw [edPoint]
  constructor
  · intro h
    split at h
    · rename_i hx
      have hz := hx.choose_spec
      have h := edEquiv_symm.1 (Option.some.inj h)
      split at h
      · rename_i h0
        rw [h]
        exact ⟨rfl, .inr (hz.2.trans h0.symm)⟩
      · rename_i h0
        rw [h]
        refine ⟨rfl, ?_⟩
        by_cases hz0 : hx.choose = 0
        · exact .inl (by simp [hz0])
        · refine .inr ?_
          show (-hx.choose).val % 2 = s
          rw [edF_neg_bit hz0]
          omega
    · cases h
  · rintro ⟨hy, hx⟩
    rw [hy] at hP
    have hex : ∃ x : EdF, EdEq x y ∧ x.val % 2 = 0 := by
      by_cases h0 : (toEd P).1.val % 2 = 0
      · exact ⟨_, hP, h0⟩
      · refine ⟨_, hP.neg, ?_⟩
        rw [edF_neg_bit (fun e => h0 (by rw [e]; simp))]
        omega
    rw [dif_pos hex]
    have hz := hex.choose_spec
    refine congrArg some (edEquiv_symm.2 ?_)
    refine Prod.ext ?_ ?_
    · split
      · rename_i h0
        refine ed_root_unique hP hz.1 ?_
        rcases hx with hx | hx
        · rw [hx, hz.2]; simp
        · rw [hx, hz.2, h0]
      · rename_i h0
        show (toEd P).1 = -hex.choose
        rcases hx with hx | hx
        · have : (0 : EdF) = hex.choose := ed_root_unique (hx ▸ hP) hz.1 (by rw [hz.2]; simp)
          rw [hx, ← this, neg_zero]
        · have hne : (toEd P).1 ≠ 0 := fun e => by
            rw [e] at hx
            simp at hx
            omega
          have : -(toEd P).1 = hex.choose := ed_root_unique hP.neg hz.1 (by rw [edF_neg_bit hne, hz.2]; omega)
          rw [← this, neg_neg]
    · rw [hy]
      split <;> rfl

theorem edCompress_val (P : edW.Point) : Codec.leVal (edCompress P).1 = (toEd P).2.val + 2 ^ 255 * ((toEd P).1.val % 2) := by
  refine Codec.leVal_leBytes _ _ ?_
  have h1 : (toEd P).2.val < edP := ZMod.val_lt _
  have h2 : edP < 2 ^ 255 := by decide +kernel
  have h3 : (toEd P).1.val % 2 < 2 := Nat.mod_lt _ two_pos
  have : (256 : ℕ) ^ 32 = 2 ^ 255 * 2 := by norm_num
  rw [this]
  omega

theorem edCompress_parts (P : edW.Point) : Codec.leVal (edCompress P).1 % 2 ^ 255 = (toEd P).2.val ∧
    Codec.leVal (edCompress P).1 / 2 ^ 255 = (toEd P).1.val % 2 := by
  have h1 : (toEd P).2.val < edP := ZMod.val_lt _
  have h2 : edP < 2 ^ 255 := by decide +kernel
  rw [edCompress_val]
  omega

theorem edBase_order : edL • edBase = 0 :=
  jOrder_sound (opsN_sound (by decide +kernel) (ZMod.natCast_self edP)) (a := edWa) (one := 1) (f := 253) (by simp) edBase_on_curve
    (by decide +kernel) (by decide +kernel)

theorem edBase_ne : edBase ≠ 0 := Affine.Point.some_ne_zero _

theorem edRound (P : edW.Point) : edDecompress (edCompress P) = some P := by
  refine (edDecompress_iff _ _).2 ?_
  rw [(edCompress_parts P).1, (edCompress_parts P).2, ZMod.natCast_zmod_val]
  exact ⟨rfl, .inr rfl⟩

/-- **C100** (laws). Ed25519 satisfies the laws assumed of the curve: the base point has order `edL`, and decompression undoes
compression. -/
theorem C100 : (ed25519 sha).Laws := by
  have key : ∀ n : ℕ, n • edBase = 0 → n • (ed25519 sha).base = 0 := fun n h => h
  have h1 : (ed25519 sha).decompress = edDecompress := by rw [ed25519]
  have h2 : (ed25519 sha).compress = edCompress := by rw [ed25519]
  refine ⟨key edL edBase_order, edBase_ne, fun P => ?_⟩
  rw [h1, h2]
  exact edRound P

/-- **C100** (coordinates). Both moduli are prime, and Edwards coordinates identify the group with the solutions of the equation
of RFC 8032. -/
theorem C100_curve : edP.Prime ∧ edL.Prime ∧ (∀ P, EdEq (toEd P).1 (toEd P).2) ∧ ∀ x y, EdEq x y → ∃! P, toEd P = (x, y) := by
  refine ⟨edP_prime, edL_prime, toEd_eq, fun x y h => ?_⟩
  obtain ⟨P, hP⟩ := toEd_surj h
  exact ⟨P, hP, fun Q hQ => toEd_inj (hQ.trans hP.symm)⟩

/-- **C100** (group law). In these coordinates the sum of points is given by the formulas of RFC 8032, whose denominators never
vanish. -/
theorem C100_add (P Q : edW.Point) (x₁ y₁ x₂ y₂ : EdF) (hP : toEd P = (x₁, y₁)) (hQ : toEd Q = (x₂, y₂)) :
    1 + edD * x₁ * x₂ * y₁ * y₂ ≠ 0 ∧ 1 - edD * x₁ * x₂ * y₁ * y₂ ≠ 0 ∧
    toEd (P + Q) = ((x₁ * y₂ + x₂ * y₁) / (1 + edD * x₁ * x₂ * y₁ * y₂), (y₁ * y₂ + x₁ * x₂) / (1 - edD * x₁ * x₂ * y₁ * y₂)) ∧
    toEd 0 = (0, 1) ∧ toEd (-P) = (-x₁, y₁) := by
  have h := toEd_add P Q
  have hd := ed_denominators (toEd_eq P) (toEd_eq Q)
  rw [hP, hQ] at h hd
  refine ⟨hd.1, hd.2, h, rfl, ?_⟩
  rw [← show ((toEd P).1) = x₁ by rw [hP], ← show ((toEd P).2) = y₁ by rw [hP]]
  match P with
  | .zero => simp [toEd, show (-(Affine.Point.zero : edW.Point)) = Affine.Point.zero from rfl]
  | .some X Y h =>
    have : -(Affine.Point.some X Y h : edW.Point) = .some X (-Y) (ed_montgomery.2 (by rw [neg_sq]; exact ed_montgomery.1 h)) := by
      rw [Affine.Point.neg_some]
      exact sw_some_congr _ _ rfl (by simp [Affine.negY, swCurve])
    rw [this]
    simp only [toEd, div_neg]

/-- **C100** (encodings of keys). A byte string that denotes a point is the one produced by `compress` if and only if its `y` is
reduced and no sign is given to `x = 0`. -/
theorem C100_canonical (b : Bytes 32) (P : edW.Point) (h : edDecompress b = some P) :
    edCompress P = b ↔ Codec.leVal b.1 % 2 ^ 255 < edP ∧ ((toEd P).1 = 0 → Codec.leVal b.1 < 2 ^ 255) := by
  obtain ⟨hy, hx⟩ := (edDecompress_iff b P).1 h
  have hp := edCompress_parts P
  constructor
  · rintro rfl
    rw [hp.1]
    refine ⟨ZMod.val_lt _, fun h0 => ?_⟩
    rw [h0] at hp
    have := hp.2
    simp at this
    omega
  · rintro ⟨h1, h2⟩
    have e1 : (toEd P).2.val = Codec.leVal b.1 % 2 ^ 255 := by rw [hy, ZMod.val_natCast_of_lt h1]
    have e2 : (toEd P).1.val % 2 = Codec.leVal b.1 / 2 ^ 255 := by
      rcases hx with hx | hx
      · rw [hx, Nat.div_eq_of_lt (h2 hx)]
        simp
      · exact hx
    refine Subtype.ext ?_
    show Codec.leBytes 32 _ = b.1
    rw [e1, e2, Nat.mod_add_div]
    have := Codec.leBytes_leVal b.1
    rwa [b.2] at this

/-- **C100** (deployments). With BLS12-381 and Ed25519, the theorem on deployments (C85) needs nothing but a non-trivial bilinear
map, and a hash function for which no nonce is zero. -/
theorem C100_deploy {K : Type} [CommMonoid K] [DecidableEq K] (stream : List UInt8 → List UInt8 → ℕ → UInt8)
    (shake : List UInt8 → Bytes 32) (zs : List (List UInt8) → List (Bytes 64) → List (Bytes 32) → ℕ → ℕ)
    (pair : BlsG1 → BlsG2 → K) (hl : ∀ P P' Q, pair (P + P') Q = pair P Q * pair P' Q)
    (hr : ∀ P Q Q', pair P (Q + Q') = pair P Q * pair P Q') (hu : ∀ P Q, IsUnit (pair P Q)) (hg : pair blsG1 blsG2 ≠ 1)
    (hn : ∀ (seed : Bytes 32) (msg : List UInt8), (ed25519 sha).nonce seed.1 msg ≠ 0) (md m : Mode) (cfg : Config BlsG1 BlsG2)
    (x : Spec.Draws blsR) (hx : Spec.Deployable cfg x) (shs : ℕ → PVSSShare blsR BlsG1 BlsG2)
    (hs : Spec.Dealt (arkSuite pair stream shake ((ed25519 sha).ops zs)) md cfg x shs) (p : Spec.Plan blsR)
    (hp : ∀ i ∈ p.leaves, i < cfg.numParticipants) (hw : ∀ i, p.leaves.count i < 2 ^ 64) :
    let S := arkSuite pair stream shake ((ed25519 sha).ops zs)
    let secret := (p.leaves.map fun i => x.deal i 0).sum
    ∃ a : Aggregator blsR BlsG1 BlsG2, p.exec S m (Aggregator.new cfg (Spec.table S cfg x)) shs = .ok a ∧
    (∀ i, Spec.weightOf a.tx i = p.leaves.count i) ∧
    ∃ d : ℕ → DecryptedShare BlsG1,
      (∀ i < cfg.numParticipants,
        (DecryptedShare.generate a.tx.core.encs (Spec.party S cfg x i).skSig i : Res PVSSError _) = .ok (d i)) ∧
      ∀ ids, Spec.Selection cfg.numParticipants cfg.degree ids →
        lagrangeG1 m (ids.map fun i => (d i).dec) (ids.map (Spec.point blsR)) cfg.degree = .ok (secret • cfg.srs.g1) ∧
        ∀ epoch, lagrangeGt (r := blsR) m (ids.map fun i => pair (d i).dec epoch) (ids.map fun i => i + 1) cfg.degree =
          .ok (pair (secret • cfg.srs.g1) epoch) :=
  C96 stream shake _ pair hl hr hu hg ((C97 zs (C100 sha)).2 hn) md m cfg x hx shs hs p hp hw

/-! ### examples -/

/-- The encoding of the base point, as in RFC 8032: `0x58`, then `0x66` throughout. -/
theorem Toy.edBase_bytes : (edCompress edBase).1 = 0x58 :: List.replicate 31 0x66 := by
  have hu : ((edGx : ℕ) : EdF) - ((edWt : ℕ) : EdF) = 9 := by
    have := edF_cast (m := edGx) (n := edWt + 9) (by decide +kernel)
    push_cast at this
    rw [this, add_sub_cancel_left]
  have hy : (toEd edBase).2 = ((46316835694926478169428394003475163141307993866256225615783033603165251855960 : ℕ) : EdF) := by
    show (((edGx : ℕ) : EdF) - ((edWt : ℕ) : EdF) - 1) / (((edGx : ℕ) : EdF) - ((edWt : ℕ) : EdF) + 1) = _
    have h10 : (9 + 1 : EdF) ≠ 0 := by
      have := edF_ne (m := 9 + 1) (n := 0) (by decide +kernel)
      push_cast at this
      exact this
    rw [hu, div_eq_iff h10]
    have := edF_cast (m := 8) (n := 46316835694926478169428394003475163141307993866256225615783033603165251855960 * (9 + 1))
      (by decide +kernel)
    rw [Nat.cast_mul, Nat.cast_add] at this
    rw [show (9 - 1 : EdF) = (8 : ℕ) by norm_num, this]
    norm_num
  have hx : (toEd edBase).1 = ((15112221349535400772501151409588531511454012693041857206046113283949847762202 : ℕ) : EdF) := by
    show ((edC : ℕ) : EdF) * (((edGx : ℕ) : EdF) - ((edWt : ℕ) : EdF)) / ((edGy : ℕ) : EdF) = _
    have hv : ((edGy : ℕ) : EdF) ≠ 0 := by simpa using edF_ne (m := edGy) (n := 0) (by decide +kernel)
    rw [hu, div_eq_iff hv, ← Nat.cast_mul, show (9 : EdF) = ((9 : ℕ) : EdF) by norm_num, ← Nat.cast_mul]
    exact edF_cast (by decide +kernel)
  show Codec.leBytes 32 _ = _
  rw [hx, hy, ZMod.val_natCast_of_lt (by decide +kernel), ZMod.val_natCast_of_lt (by decide +kernel)]
  decide +kernel

/-- The point `(0, -1)` has order two. -/
example : ∃ P : edW.Point, toEd P = (0, -1) ∧ P ≠ 0 ∧ P + P = 0 := by
  obtain ⟨P, hP⟩ := toEd_surj (x := 0) (y := -1) (by simp [EdEq])
  refine ⟨P, hP, ?_, toEd_inj ?_⟩
  · rintro rfl
    have h := congrArg Prod.snd hP
    have h : (1 : EdF) = -1 := h
    exact edF_two (by linear_combination h)
  · rw [(C100_add P P _ _ _ _ hP hP).2.2.1, (C100_add P P _ _ _ _ hP hP).2.2.2.1]
    simp

/-- The batch that passes although its vote is refused (C98), on the curve itself. -/
example : ¬ C98_claim (ed25519 sha) := C98_false (C100 sha)

/-- The identity has three encodings. -/
example : edDecompress ⟨Codec.leBytes 32 1, Codec.length_leBytes _ _⟩ = some 0 ∧
    edDecompress ⟨Codec.leBytes 32 (1 + edP), Codec.length_leBytes _ _⟩ = some 0 ∧
    edDecompress ⟨Codec.leBytes 32 (1 + 2 ^ 255), Codec.length_leBytes _ _⟩ = some 0 := by
  have h : ∀ n < 256 ^ 32, n % 2 ^ 255 % edP = 1 → edDecompress ⟨Codec.leBytes 32 n, Codec.length_leBytes _ _⟩ = some 0 := by
    intro n hn h1
    refine (edDecompress_iff _ _).2 ⟨?_, .inl rfl⟩
    show (1 : EdF) = ((Codec.leVal (Codec.leBytes 32 n) % 2 ^ 255 : ℕ) : EdF)
    rw [Codec.leVal_leBytes _ _ hn, ← Nat.cast_one]
    exact edF_cast (by rw [h1]; decide +kernel)
  exact ⟨h _ (by decide +kernel) (by decide +kernel), h _ (by decide +kernel) (by decide +kernel), h _ (by decide +kernel) (by decide +kernel)⟩

/-- Non-vacuity of C100: with a constant hash function all laws of EdDSA hold over Ed25519. -/
example : EdLaws ((ed25519 fun _ => ⟨Codec.leBytes 64 5, Codec.length_leBytes _ _⟩).ops fun _ _ _ i => i + 1) := by
  refine (C97 _ (C100 _)).2 fun seed msg => ?_
  show Codec.leVal (Codec.leBytes 64 5) % edL ≠ 0
  rw [Codec.leVal_leBytes _ _ (by norm_num)]
  decide +kernel

end Verif
