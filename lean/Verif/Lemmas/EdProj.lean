import Verif.Model.EdProj
import Verif.Props.Ed25519

/-!
# Coordinates of Ed25519: every operation denotes the operation of the group
-/

namespace Verif

open WeierstrassCurve

/-- Extended coordinates of a point. -/
def Spec.DenExt (e : EdProj.Ext EdF) (P : edW.Point) : Prop :=
  e.z ≠ 0 ∧ e.x = (toEd P).1 * e.z ∧ e.y = (toEd P).2 * e.z ∧ e.t = (toEd P).1 * (toEd P).2 * e.z

namespace EdProj

open Spec (DenExt)

def DenProj (e : Proj EdF) (P : edW.Point) : Prop := e.z ≠ 0 ∧ e.x = (toEd P).1 * e.z ∧ e.y = (toEd P).2 * e.z

def DenCompl (e : Compl EdF) (P : edW.Point) : Prop := e.z ≠ 0 ∧ e.t ≠ 0 ∧ e.x = (toEd P).1 * e.z ∧ e.y = (toEd P).2 * e.t

def DenNiels (e : Niels EdF) (P : edW.Point) : Prop :=
  e.z ≠ 0 ∧ e.yPlusX = ((toEd P).2 + (toEd P).1) * e.z ∧ e.yMinusX = ((toEd P).2 - (toEd P).1) * e.z ∧
    e.t2d = 2 * edD * (toEd P).1 * (toEd P).2 * e.z

def DenANiels (e : ANiels EdF) (P : edW.Point) : Prop :=
  e.yPlusX = (toEd P).2 + (toEd P).1 ∧ e.yMinusX = (toEd P).2 - (toEd P).1 ∧ e.xy2d = 2 * edD * (toEd P).1 * (toEd P).2

theorem sq_eq (x : EdF) : FE.sq x = x * x := rfl

theorem sq2_eq (x : EdF) : FE.sq2 x = 2 * (x * x) := rfl

theorem pow2k_eq (k : ℕ) (x : EdF) : FE.pow2k k x = x ^ 2 ^ k := rfl

theorem toNat_eq (x : EdF) : FE.toNat x = x.val := rfl

theorem ofNat_eq (n : ℕ) : (FE.ofNat n : EdF) = ((n % 2 ^ 255 : ℕ) : EdF) := rfl

theorem d_eq : (FE.d : EdF) = edD := rfl

/-- `SQRT_M1`. -/
def sqrtM1 : EdF := (edI : ℕ)

theorem sqrtM1_eq : (FE.sqrtM1 : EdF) = sqrtM1 := rfl

theorem baseX_eq : (FE.baseX : EdF) = (0x216936d3cd6e53fec0a4e231fdd6dc5c692cc7609525a7b2c9562d608f25d51a : ℕ) := rfl

theorem baseY_eq : (FE.baseY : EdF) = (0x6666666666666666666666666666666666666666666666666666666666666658 : ℕ) := rfl

theorem d2_eq : (FE.d2 : EdF) = 2 * edD := rfl

theorem feEq_eq (x y : EdF) : feEq x y = decide (x = y) := by
  rw [feEq, toNat_eq, toNat_eq]
  simp only [(ZMod.val_injective edP).eq_iff]

theorem pow22501_eq (x : EdF) : pow22501 x = (x ^ (2 ^ 250 - 1), x ^ 11) := by
  simp only [pow22501, sq_eq, pow2k_eq, ← pow_two, ← pow_succ, ← pow_succ', ← pow_mul, ← pow_add]
  norm_num

theorem invert_eq (x : EdF) : invert x = x⁻¹ := by
  by_cases h : x = 0
  · rw [invert, pow2k_eq, pow22501_eq, h]
    simp
  · rw [invert, pow2k_eq, pow22501_eq]
    refine eq_inv_of_mul_eq_one_left ?_
    have h1 : x ^ (edP - 1) = 1 := ZMod.pow_card_sub_one_eq_one h
    rw [← h1]
    simp only [← pow_mul, ← pow_add, ← pow_succ]
    congr 1

theorem powP58_eq (x : EdF) : powP58 x = x ^ ((edP - 5) / 8) := by
  rw [powP58, pow2k_eq, pow22501_eq]
  simp only [← pow_mul, ← pow_succ']
  congr 1

theorem div_mul_mul {a d c : EdF} (h : d ≠ 0) : a / d * (d * c) = a * c := by rw [← mul_assoc, div_mul_cancel₀ _ h]

theorem toEd_zero : toEd (0 : edW.Point) = (0, 1) := rfl

theorem toEd_neg (P : edW.Point) : toEd (-P) = (-(toEd P).1, (toEd P).2) := by
  obtain ⟨Q, hQ⟩ := toEd_surj (toEd_eq P).neg
  have : P + Q = 0 := by
    apply toEd_inj
    rw [toEd_add, hQ, toEd_zero]
    have h1 := toEd_eq P
    obtain ⟨d1, d2⟩ := ed_denominators (q := (-(toEd P).1, (toEd P).2)) (toEd_eq P) (toEd_eq P).neg
    simp only [edSumX, edSumY] at *
    rw [EdEq] at h1
    refine Prod.ext ?_ ?_
    · show _ = (0 : EdF)
      rw [div_eq_zero_iff]
      left
      ring
    · show _ = (1 : EdF)
      rw [div_eq_one_iff_eq d2]
      linear_combination h1
  rw [← hQ, neg_eq_of_add_eq_zero_right this]

theorem DenCompl.toExt {c : Compl EdF} {P} (h : DenCompl c P) : DenExt c.toExt P := by
  obtain ⟨hz, ht, hx, hy⟩ := h
  refine ⟨mul_ne_zero hz ht, ?_, ?_, ?_⟩ <;> simp only [Compl.toExt, hx, hy] <;> ring

theorem DenCompl.toProj {c : Compl EdF} {P} (h : DenCompl c P) : DenProj c.toProj P := by
  obtain ⟨hz, ht, hx, hy⟩ := h
  refine ⟨mul_ne_zero hz ht, ?_, ?_⟩ <;> simp only [Compl.toProj, hx, hy] <;> ring

theorem DenProj.toExt {c : Proj EdF} {P} (h : DenProj c P) : DenExt c.toExt P := by
  obtain ⟨hz, hx, hy⟩ := h
  refine ⟨mul_ne_zero hz hz, ?_, ?_, ?_⟩ <;> simp only [Proj.toExt, sq_eq, hx, hy] <;> ring

theorem _root_.Verif.Spec.DenExt.toProj {e : Ext EdF} {P} (h : DenExt e P) : DenProj e.toProj P := ⟨h.1, h.2.1, h.2.2.1⟩

theorem DenProj.double {c : Proj EdF} {P} (h : DenProj c P) : DenCompl c.double (P + P) := by
  obtain ⟨hz, hx, hy⟩ := h
  have hc := toEd_eq P
  obtain ⟨d1, d2⟩ := ed_denominators (toEd_eq P) (toEd_eq P)
  have hs := toEd_add P P
  rw [EdEq] at hc
  rw [DenCompl, hs]
  simp only [edSumX, edSumY, Proj.double, sq_eq, sq2_eq, hx, hy]
  have e1 : (toEd P).2 * c.z * ((toEd P).2 * c.z) - (toEd P).1 * c.z * ((toEd P).1 * c.z) =
      (1 + edD * (toEd P).1 * (toEd P).1 * (toEd P).2 * (toEd P).2) * c.z ^ 2 := by linear_combination c.z ^ 2 * hc
  have e2 : 2 * (c.z * c.z) - (1 + edD * (toEd P).1 * (toEd P).1 * (toEd P).2 * (toEd P).2) * c.z ^ 2 =
      (1 - edD * (toEd P).1 * (toEd P).1 * (toEd P).2 * (toEd P).2) * c.z ^ 2 := by ring
  rw [e1, e2]
  refine ⟨mul_ne_zero d1 (pow_ne_zero _ hz), mul_ne_zero d2 (pow_ne_zero _ hz), ?_, ?_⟩
  · rw [div_mul_mul d1]
    ring
  · rw [div_mul_mul d2]
    ring

theorem DenANiels.neg {n : ANiels EdF} {P} (h : DenANiels n P) : DenANiels n.neg (-P) := by
  obtain ⟨h1, h2, h3⟩ := h
  rw [DenANiels, toEd_neg]
  refine ⟨?_, ?_, ?_⟩ <;> simp only [ANiels.neg, h1, h2, h3] <;> ring

theorem DenNiels.neg {n : Niels EdF} {P} (h : DenNiels n P) : DenNiels n.neg (-P) := by
  obtain ⟨h0, h1, h2, h3⟩ := h
  rw [DenNiels, toEd_neg]
  refine ⟨h0, ?_, ?_, ?_⟩ <;> simp only [Niels.neg, h1, h2, h3] <;> ring

theorem _root_.Verif.Spec.DenExt.addN {e : Ext EdF} {n : Niels EdF} {P Q} (h : DenExt e P) (h' : DenNiels n Q) : DenCompl (e.addN n) (P + Q) := by
  obtain ⟨hz, hx, hy, ht⟩ := h
  obtain ⟨h0, h1, h2, h3⟩ := h'
  obtain ⟨d1, d2⟩ := ed_denominators (toEd_eq P) (toEd_eq Q)
  have h2z : 2 * e.z * n.z ≠ 0 := mul_ne_zero (mul_ne_zero edF_two hz) h0
  rw [DenCompl, toEd_add]
  simp only [edSumX, edSumY, Ext.addN, hx, hy, ht, h1, h2, h3]
  have e1 : e.z * n.z + e.z * n.z + (toEd P).1 * (toEd P).2 * e.z * (2 * edD * (toEd Q).1 * (toEd Q).2 * n.z) =
      (1 + edD * (toEd P).1 * (toEd Q).1 * (toEd P).2 * (toEd Q).2) * (2 * e.z * n.z) := by ring
  have e2 : e.z * n.z + e.z * n.z - (toEd P).1 * (toEd P).2 * e.z * (2 * edD * (toEd Q).1 * (toEd Q).2 * n.z) =
      (1 - edD * (toEd P).1 * (toEd Q).1 * (toEd P).2 * (toEd Q).2) * (2 * e.z * n.z) := by ring
  rw [e1, e2]
  refine ⟨mul_ne_zero d1 h2z, mul_ne_zero d2 h2z, ?_, ?_⟩
  · rw [div_mul_mul d1]
    ring
  · rw [div_mul_mul d2]
    ring

theorem _root_.Verif.Spec.DenExt.subN {e : Ext EdF} {n : Niels EdF} {P Q} (h : DenExt e P) (h' : DenNiels n Q) : DenCompl (e.subN n) (P - Q) := by
  have : e.subN n = e.addN n.neg := by
    simp only [Ext.subN, Ext.addN, Niels.neg, mul_neg, sub_neg_eq_add, ← sub_eq_add_neg]
  rw [this, sub_eq_add_neg]
  exact h.addN h'.neg

/-- An affine table entry is a projective one with `z = 1`. -/
def ANiels.proj (n : ANiels EdF) : Niels EdF := ⟨n.yPlusX, n.yMinusX, 1, n.xy2d⟩

theorem DenANiels.proj {n : ANiels EdF} {P} (h : DenANiels n P) : DenNiels n.proj P := by
  obtain ⟨h1, h2, h3⟩ := h
  refine ⟨one_ne_zero, ?_, ?_, ?_⟩ <;> simp only [ANiels.proj, h1, h2, h3, mul_one]

theorem _root_.Verif.Spec.DenExt.addA {e : Ext EdF} {n : ANiels EdF} {P Q} (h : DenExt e P) (h' : DenANiels n Q) : DenCompl (e.addA n) (P + Q) := by
  have : e.addA n = e.addN n.proj := by simp only [Ext.addA, Ext.addN, ANiels.proj, mul_one]
  rw [this]
  exact h.addN h'.proj

theorem _root_.Verif.Spec.DenExt.subA {e : Ext EdF} {n : ANiels EdF} {P Q} (h : DenExt e P) (h' : DenANiels n Q) : DenCompl (e.subA n) (P - Q) := by
  have : e.subA n = e.subN n.proj := by simp only [Ext.subA, Ext.subN, ANiels.proj, mul_one]
  rw [this]
  exact h.subN h'.proj

theorem _root_.Verif.Spec.DenExt.toNiels {e : Ext EdF} {P} (h : DenExt e P) : DenNiels e.toNiels P := by
  obtain ⟨hz, hx, hy, ht⟩ := h
  refine ⟨hz, ?_, ?_, ?_⟩ <;> simp only [Ext.toNiels, d2_eq, hx, hy, ht] <;> ring

theorem _root_.Verif.Spec.DenExt.affine {e : Ext EdF} {P} (h : DenExt e P) :
    e.x * invert e.z = (toEd P).1 ∧ e.y * invert e.z = (toEd P).2 := by
  obtain ⟨hz, hx, hy, ht⟩ := h
  rw [invert_eq, hx, hy, mul_inv_cancel_right₀ hz, mul_inv_cancel_right₀ hz]
  exact ⟨rfl, rfl⟩

theorem _root_.Verif.Spec.DenExt.toANiels {e : Ext EdF} {P} (h : DenExt e P) : DenANiels e.toANiels P := by
  obtain ⟨hx, hy⟩ := h.affine
  refine ⟨?_, ?_, ?_⟩ <;> simp only [Ext.toANiels, d2_eq, hx, hy]
  ring

theorem _root_.Verif.Spec.DenExt.double {e : Ext EdF} {P} (h : DenExt e P) : DenExt e.double (P + P) := h.toProj.double.toExt

theorem _root_.Verif.Spec.DenExt.add {e f : Ext EdF} {P Q} (h : DenExt e P) (h' : DenExt f Q) : DenExt (e.add f) (P + Q) :=
  (h.addN h'.toNiels).toExt

theorem _root_.Verif.Spec.DenExt.neg {e : Ext EdF} {P} (h : DenExt e P) : DenExt e.neg (-P) := by
  obtain ⟨hz, hx, hy, ht⟩ := h
  rw [DenExt, toEd_neg]
  refine ⟨hz, ?_, ?_, ?_⟩ <;> simp only [Ext.neg, hx, hy, ht] <;> ring

theorem DenProj.iterate {e : Proj EdF} {P} (h : DenProj e P) (k : ℕ) : DenProj ((fun s => s.double.toProj)^[k] e) (2 ^ k • P) := by
  induction k with
  | zero => simpa using h
  | succ k ih =>
    rw [Function.iterate_succ_apply', pow_succ, mul_two, add_nsmul]
    exact ih.double.toProj

theorem _root_.Verif.Spec.DenExt.mulByPow2 {e : Ext EdF} {P} (h : DenExt e P) {k : ℕ} (hk : 0 < k) : DenExt (e.mulByPow2 k) (2 ^ k • P) := by
  obtain ⟨k, rfl⟩ := Nat.exists_eq_succ_of_ne_zero hk.ne'
  rw [pow_succ, mul_two, add_nsmul]
  exact (h.toProj.iterate k).double.toExt

theorem denExt_id : DenExt Ext.id 0 := by
  rw [DenExt, toEd_zero]
  simp [Ext.id]

theorem denProj_id : DenProj Proj.id 0 := by
  rw [DenProj, toEd_zero]
  simp [Proj.id]

theorem denANiels_id : DenANiels ANiels.id 0 := by
  rw [DenANiels, toEd_zero]
  simp [ANiels.id]

theorem _root_.Verif.Spec.DenExt.eq_iff {e f : Ext EdF} {P Q} (h : DenExt e P) (h' : DenExt f Q) : e.eq f = true ↔ P = Q := by
  obtain ⟨hz, hx, hy, -⟩ := h
  obtain ⟨hz', hx', hy', -⟩ := h'
  rw [Ext.eq, feEq_eq, feEq_eq, Bool.and_eq_true, decide_eq_true_iff, decide_eq_true_iff, hx, hy, hx', hy']
  constructor
  · rintro ⟨h1, h2⟩
    refine toEd_inj (Prod.ext ?_ ?_)
    · exact mul_right_cancel₀ (mul_ne_zero hz hz') (by linear_combination h1)
    · exact mul_right_cancel₀ (mul_ne_zero hz hz') (by linear_combination h2)
  · rintro rfl
    constructor <;> ring

theorem _root_.Verif.Spec.DenExt.isId_iff {e : Ext EdF} {P} (h : DenExt e P) : e.isId = true ↔ P = 0 := h.eq_iff denExt_id

theorem _root_.Verif.Spec.DenExt.isSmallOrder {e : Ext EdF} {P} (h : DenExt e P) : e.isSmallOrder = EdCurve.smallOrder P := by
  rw [Bool.eq_iff_iff, Ext.isSmallOrder, (h.mulByPow2 (by norm_num : 0 < 3)).isId_iff, EdCurve.smallOrder, decide_eq_true_iff]
  norm_num

theorem _root_.Verif.Spec.DenExt.compress {e : Ext EdF} {P} (h : DenExt e P) : e.compress = edCompress P := by
  obtain ⟨hx, hy⟩ := h.affine
  refine Subtype.ext ?_
  show Codec.leBytes 32 ((e.y * invert e.z).val + 2 ^ 255 * if isNegative (e.x * invert e.z) then 1 else 0) = (edCompress P).1
  rw [hx, hy]
  have : (if isNegative (toEd P).1 = true then 1 else 0) = (toEd P).1.val % 2 := by
    have := Nat.mod_two_eq_zero_or_one (toEd P).1.val
    unfold isNegative
    rw [toNat_eq]
    split <;> simp_all
  rw [this, edCompress]

theorem denExt_base : DenExt Ext.base edBase := by
  have h3 := edWt_three
  have hx : ((edGx : ℕ) : EdF) - (edWt : ℕ) = 9 := by
    have := edF_cast (m := edGx) (n := edWt + 9) (by decide +kernel)
    push_cast at this
    linear_combination this
  have h10 : (10 : EdF) ≠ 0 := by simpa using edF_ne (m := 10) (n := 0) (by decide +kernel)
  have hgy : ((edGy : ℕ) : EdF) ≠ 0 := by simpa using edF_ne (m := edGy) (n := 0) (by decide +kernel)
  have key : toEd edBase = (Ext.base.x, Ext.base.y) := by
    rw [edBase, toEd_some _ hx]
    refine Prod.ext ?_ ?_
    · show _ / _ = _
      rw [div_eq_iff hgy]
      have := edF_cast (m := edC * 9) (n := 0x216936d3cd6e53fec0a4e231fdd6dc5c692cc7609525a7b2c9562d608f25d51a * edGy) (by decide +kernel)
      push_cast at this
      exact this
    · show _ / _ = _
      rw [div_eq_iff (by norm_num; exact h10)]
      have := edF_cast (m := 8) (n := 0x6666666666666666666666666666666666666666666666666666666666666658 * 10) (by decide +kernel)
      push_cast at this
      simp only [Ext.base, baseY_eq]
      push_cast
      linear_combination this
  rw [DenExt, key]
  refine ⟨one_ne_zero, (mul_one _).symm, (mul_one _).symm, ?_⟩
  show _ = _ * 1
  rw [mul_one]
  have := edF_cast (m := 0x67875f0fd78b766566ea4e8e64abe37d20f09f80775152f56dde8ab3a5b7dda3)
    (n := 0x216936d3cd6e53fec0a4e231fdd6dc5c692cc7609525a7b2c9562d608f25d51a * 0x6666666666666666666666666666666666666666666666666666666666666658)
    (by decide +kernel)
  rw [Nat.cast_mul] at this
  exact this

theorem sqrtRatio_spec {u v : EdF} (hv : v ≠ 0) :
    ((sqrtRatio u v).1 = true → v * (sqrtRatio u v).2 ^ 2 = u) ∧ (sqrtRatio u v).2.val % 2 = 0 ∧
    ((sqrtRatio u v).1 = false → ∀ x, v * x ^ 2 ≠ u) := by
  have hi : sqrtM1 ^ 2 = -1 := edI_sq
  have hi1 : 1 + sqrtM1 ≠ 0 := fun h => by
    have h2 : (2 : EdF) = 0 := by linear_combination hi + (1 - sqrtM1) * h
    exact edF_two h2
  unfold sqrtRatio
  simp only [sq_eq, feEq_eq, sqrtM1_eq]
  generalize hr : u * (v * v * v) * powP58 (u * (v * v * v * (v * v * v) * v)) = r0
  have hcheck : v * (r0 * r0) = u * (u * v ^ 7) ^ ((edP - 1) / 4) := by
    have hk : (edP - 1) / 4 = (edP - 5) / 8 * 2 + 1 := by decide +kernel
    have h7 : v * v * v * (v * v * v) * v = v ^ 7 := by ring
    rw [← hr, powP58_eq, h7, hk]
    generalize (edP - 5) / 8 = k
    generalize hw : u * v ^ 7 = w
    rw [pow_succ w, pow_mul]
    linear_combination u * (w ^ k) ^ 2 * hw
  refine ⟨fun h => ?_, ?_, fun h x hx => ?_⟩
  · rw [Bool.or_eq_true, decide_eq_true_iff, decide_eq_true_iff] at h
    have key : v * (if (decide (v * (r0 * r0) = -u) || decide (v * (r0 * r0) = -u * sqrtM1)) = true then sqrtM1 * r0 else r0) ^ 2 = u := by
      split
      · rename_i hf
        rw [Bool.or_eq_true, decide_eq_true_iff, decide_eq_true_iff] at hf
        have : v * (r0 * r0) = -u := by
          rcases hf with hf | hf
          · exact hf
          · rcases h with h | h
            · have : u * (1 + sqrtM1) = 0 := by linear_combination hf - h
              rcases mul_eq_zero.1 this with h0 | h0
              · rw [h, h0, neg_zero]
              · exact absurd h0 hi1
            · exact h
        linear_combination v * r0 ^ 2 * hi - this
      · rename_i hf
        rw [Bool.or_eq_true, decide_eq_true_iff, decide_eq_true_iff] at hf
        rcases h with h | h
        · linear_combination h
        · exact absurd (.inl h) hf
    generalize (if (decide (v * (r0 * r0) = -u) || decide (v * (r0 * r0) = -u * sqrtM1)) = true then sqrtM1 * r0 else r0) = r at key ⊢
    split
    · rw [neg_sq]
      exact key
    · exact key
  · generalize (if (decide (v * (r0 * r0) = -u) || decide (v * (r0 * r0) = -u * sqrtM1)) = true then sqrtM1 * r0 else r0) = r
    unfold isNegative
    rw [toNat_eq]
    split
    · rename_i h
      rw [decide_eq_true_iff] at h
      rw [edF_neg_bit (fun e => by rw [e] at h; simp at h), h]
    · rename_i h
      rw [decide_eq_true_iff] at h
      omega
  · rw [Bool.or_eq_false_iff, decide_eq_false_iff_not, decide_eq_false_iff_not] at h
    by_cases hx0 : x = 0
    · have hu : u = 0 := by rw [← hx, hx0]; ring
      apply h.1
      rw [hcheck, hu, zero_mul]
    · have hw : u * v ^ 7 = (v ^ 4 * x) ^ 2 := by rw [← hx]; ring
      have h1 : ((v ^ 4 * x) ^ ((edP - 1) / 2)) ^ 2 = 1 := by
        rw [← pow_mul, show (edP - 1) / 2 * 2 = edP - 1 by decide +kernel]
        exact ZMod.pow_card_sub_one_eq_one (mul_ne_zero (pow_ne_zero _ hv) hx0)
      rw [hcheck, hw, ← pow_mul, show 2 * ((edP - 1) / 4) = (edP - 1) / 2 by decide +kernel] at h
      rcases sq_eq_one_iff.1 h1 with h2 | h2
      · exact h.1 (by rw [h2, mul_one])
      · exact h.2 (by rw [h2]; ring)

/-- Decompression in coordinates is decompression. -/
theorem decompress_spec (b : Bytes 32) :
    (∃ e P, Ext.decompress b = some e ∧ edDecompress b = some P ∧ DenExt e P) ∨
    ((Ext.decompress b : Option (Ext EdF)) = none ∧ edDecompress b = none) := by
  have hs : Codec.leVal b.1 / 2 ^ 255 < 2 := by
    have := Codec.leVal_lt b.1
    rw [b.2] at this
    exact Nat.div_lt_of_lt_mul (this.trans_eq (by norm_num))
  have hiff := edDecompress_iff b
  unfold Ext.decompress
  simp only [ofNat_eq, sq_eq, d_eq]
  generalize Codec.leVal b.1 / 2 ^ 255 = s at hs hiff ⊢
  generalize ((Codec.leVal b.1 % 2 ^ 255 : ℕ) : EdF) = y at hiff ⊢
  have hv : y * y * edD + 1 ≠ 0 := by
    intro h
    have hi := edI_sq
    have hy : y ≠ 0 := by
      rintro rfl
      simp at h
    refine edD_not_square ((edI : ℕ) / y) ?_
    rw [div_pow, hi, div_eq_iff (pow_ne_zero 2 hy)]
    linear_combination -h
  have hE : ∀ x, EdEq x y ↔ (y * y * edD + 1) * x ^ 2 = y * y - 1 := by
    intro x
    rw [EdEq]
    constructor <;> intro h <;> linear_combination -h
  obtain ⟨h1, h2, h3⟩ := sqrtRatio_spec (u := y * y - 1) hv
  generalize sqrtRatio (y * y - 1) (y * y * edD + 1) = q at h1 h2 h3
  split
  · rename_i hq
    left
    have hq1 := (hE _).2 (h1 hq)
    have hx : EdEq (if s = 1 then -q.2 else q.2) y := by
      split
      · exact hq1.neg
      · exact hq1
    obtain ⟨P, hP⟩ := toEd_surj hx
    refine ⟨_, P, rfl, (hiff P).2 ?_, ?_⟩
    · rw [hP]
      refine ⟨rfl, ?_⟩
      show (if s = 1 then -q.2 else q.2) = 0 ∨ (if s = 1 then -q.2 else q.2).val % 2 = s
      split
      · rename_i hs1
        by_cases hq0 : q.2 = 0
        · exact .inl (by rw [hq0, neg_zero])
        · exact .inr (by rw [edF_neg_bit hq0, h2, hs1])
      · right
        omega
    · rw [DenExt, hP]
      simp
  · rename_i hq
    right
    refine ⟨rfl, ?_⟩
    rw [Option.eq_none_iff_forall_ne_some]
    intro P hP
    have := toEd_eq P
    rw [((hiff P).1 hP).1, hE] at this
    exact h3 (by simpa using hq) _ this

end EdProj

end Verif
