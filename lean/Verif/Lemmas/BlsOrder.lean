import Verif.Lemmas.Bls

/-!
# The number of points of the curves of BLS12-381

`y² = x³ + b` has the automorphism `(x, y) ↦ (β x, y)` for a cube root `β` of one.  A point of prime order `ℓ` that is not an
eigenvector of it gives `ℓ²` points of order `ℓ`.  With points for every prime factor of `h r`, and the bound `2 q + 1` for the
number of points, the curves have exactly `h r` points.
-/

namespace Verif

open WeierstrassCurve

set_option linter.unusedSectionVars false

section
variable {F : Type} [Field F] [DecidableEq F]

theorem sw_rot_nonsingular {b β x y : F} (hd : (64 : F) * 0 ^ 3 + 432 * b ^ 2 ≠ 0) (hβ : β ^ 3 = 1)
    (h : (swCurve 0 b).Nonsingular x y) : (swCurve 0 b).Nonsingular (β * x) y := by
  rw [sw_nonsingular hd] at h ⊢
  rw [h, mul_pow, hβ]
  ring

/-- The map `(x, y) ↦ (β x, y)`. -/
def swRotFun {b β : F} (hd : (64 : F) * 0 ^ 3 + 432 * b ^ 2 ≠ 0) (hβ : β ^ 3 = 1) : (swCurve 0 b).Point → (swCurve 0 b).Point
  | .zero => 0
  | .some x y h => .some (β * x) y (sw_rot_nonsingular hd hβ h)

/-- It is additive. -/
def swRot {b β : F} (hd : (64 : F) * 0 ^ 3 + 432 * b ^ 2 ≠ 0) (hβ : β ^ 3 = 1) : (swCurve 0 b).Point →+ (swCurve 0 b).Point where
  toFun := swRotFun hd hβ
  map_zero' := rfl
  map_add' := by
    have h0 : β ≠ 0 := by
      rintro rfl
      simp at hβ
    have hz : swRotFun hd hβ 0 = 0 := rfl
    rintro (_ | ⟨x, y, h⟩) (_ | ⟨u, v, h'⟩)
    · rfl
    · change swRotFun hd hβ (0 + _) = 0 + _
      rw [zero_add, zero_add]
    · change swRotFun hd hβ (_ + 0) = _ + 0
      rw [add_zero, add_zero]
    · by_cases hx : x = u
      · subst hx
        by_cases hy : y = (swCurve 0 b).negY x v
        · rw [Affine.Point.add_of_Y_eq rfl hy]
          simp only [swRotFun]
          exact (Affine.Point.add_of_Y_eq rfl (by simpa [Affine.negY, swCurve] using hy)).symm
        · have hyv : y = v := by
            have e1 := sw_equation.1 h.1
            have e2 := sw_equation.1 h'.1
            rcases sq_eq_sq_iff_eq_or_eq_neg.1 (e1.trans e2.symm) with e | e
            · exact e
            · exact absurd (by simp [Affine.negY, swCurve, e]) hy
          subst hyv
          have hy2 : 2 * y ≠ 0 := by
            intro e
            apply hy
            simp only [Affine.negY, swCurve]
            linear_combination e
          obtain ⟨l, hl⟩ : ∃ l, l * (2 * y) = 3 * x ^ 2 + 0 := ⟨_, div_mul_cancel₀ _ hy2⟩
          obtain ⟨h1, e1⟩ := sw_dbl h hy2 hl
          obtain ⟨h2, e2⟩ := sw_dbl (l := β ^ 2 * l) (sw_rot_nonsingular hd hβ h) hy2
            (by linear_combination β ^ 2 * hl)
          rw [e1]
          simp only [swRotFun]
          rw [e2]
          refine sw_some_congr _ _ ?_ ?_
          · linear_combination (-β * l ^ 2) * hβ
          · linear_combination (β ^ 3 * l ^ 3 - 3 * l * x + l ^ 3) * hβ
      · have hx' : x - u ≠ 0 := sub_ne_zero.2 hx
        obtain ⟨l, hl⟩ : ∃ l, l * (x - u) = y - v := ⟨_, div_mul_cancel₀ _ hx'⟩
        obtain ⟨h1, e1⟩ := sw_add h h' hx' hl
        obtain ⟨h2, e2⟩ := sw_add (l := β ^ 2 * l) (sw_rot_nonsingular hd hβ h) (sw_rot_nonsingular hd hβ h')
          (by rw [← mul_sub]; exact mul_ne_zero h0 hx') (by linear_combination hl + l * (x - u) * hβ)
        rw [e1]
        simp only [swRotFun]
        rw [e2]
        refine sw_some_congr _ _ ?_ ?_
        · linear_combination (-β * l ^ 2) * hβ
        · linear_combination (β ^ 3 * l ^ 3 - l * (2 * x + u) + l ^ 3) * hβ

theorem swRot_some {b β x y : F} (hd : (64 : F) * 0 ^ 3 + 432 * b ^ 2 ≠ 0) (hβ : β ^ 3 = 1) (h : (swCurve 0 b).Nonsingular x y) :
    swRot hd hβ (.some x y h) = .some (β * x) y (sw_rot_nonsingular hd hβ h) := rfl

/-- The test that `n` times the point `(u, v)` does not have the abscissa `w`. -/
def jNe {A : Type} (o : FieldOps A) (a u v one : A) (f n : ℕ) (w : A) : Bool :=
  match jMul o a u v one f n with
  | none => false
  | some (X, _, Z) => o.unit (o.sub X (o.mul w (o.mul Z Z)))

theorem jNe_sound {A : Type} {o : FieldOps A} {φ : A → F} (ho : o.Sound φ) {a one : A} {b : F} {u v w : A} (h1 : φ one = 1)
    (huv : (swCurve (φ a) b).Nonsingular (φ u) (φ v)) {f n : ℕ} (h : jNe o a u v one f n w = true) {y : F}
    (hw : (swCurve (φ a) b).Nonsingular (φ w) y) : Affine.Point.some _ _ hw ≠ n • Affine.Point.some _ _ huv := by
  rw [jNe] at h
  split at h
  · cases h
  · rename_i X Y Z e
    obtain ⟨hz, x, y', hxy, hq, hX, hY⟩ := jMul_rep ho h1 huv f _ _ e
    have e1 := ho.unit _ h
    simp only [ho.mul, ho.sub] at e1 hX
    rw [hq]
    intro he
    simp only [Affine.Point.some.injEq] at he
    apply e1
    rw [hX, ← he.1]
    ring

/-- A point of prime order gives a factor of the number of points. -/
theorem dvd_card_of_order {G : Type} [AddCommGroup G] {l : ℕ} (hl : l.Prime) {P : G} (hP : P ≠ 0) (h : l • P = 0) :
    l ∣ Nat.card G := by
  have := Fact.mk hl
  rw [← addOrderOf_eq_prime h hP]
  exact addOrderOf_dvd_natCard P

theorem card_pow_finrank (l : ℕ) [Fact l.Prime] (T : Type) [AddCommGroup T] [Module (ZMod l) T] [Finite T] :
    Nat.card T = l ^ Module.finrank (ZMod l) T := by
  have : Module.Finite (ZMod l) T := Module.Finite.of_finite
  rw [Module.natCard_eq_pow_finrank (K := ZMod l), Nat.card_zmod]

theorem smul_zero_cases (l : ℕ) [Fact l.Prime] (T : Type) [AddCommGroup T] [Module (ZMod l) T] (s : ZMod l) (P : T)
    (h : s • P = 0) : s = 0 ∨ P = 0 := smul_eq_zero.1 h

/-- A point of prime order that is not an eigenvector of an automorphism of order three gives the square. -/
theorem sq_dvd_card_of_order {G : Type} [AddCommGroup G] [Finite G] {l : ℕ} (hl : l.Prime) {P : G} (hP : P ≠ 0) (h : l • P = 0)
    (f : G →+ G) (hf : f (f (f P)) = P) (hc : ∀ c : ZMod l, c ^ 3 = 1 → f P ≠ c.val • P) : l ^ 2 ∣ Nat.card G := by
  have := Fact.mk hl
  let T := torsion l G
  let inst : Module (ZMod l) T := AddCommGroup.zmodModule fun x => Subtype.ext x.2
  have hval : ∀ (s : ZMod l) (Q : T), ((s • Q : T) : G) = s.val • (Q : G) := by
    intro s Q
    rw [← AddSubgroup.coe_nsmul, ← Nat.cast_smul_eq_nsmul (ZMod l), ZMod.natCast_zmod_val]
  let P' : T := ⟨P, h⟩
  let Q' : T := ⟨f P, mem_torsion.2 (by rw [← map_nsmul, h, map_zero])⟩
  have h1 : Nat.card T = l ^ Module.finrank (ZMod l) T := card_pow_finrank l T
  have hle : l ^ 2 ≤ Nat.card T := by
    by_contra hlt
    obtain ⟨s, hs⟩ := cyclic_of_card (not_le.1 hlt) P' Q' (fun e => hP (congrArg Subtype.val e))
    have hs1 : f P = s.val • P := by
      have := congrArg Subtype.val hs
      rwa [hval] at this
    refine hc s ?_ hs1
    have h3 : s ^ 3 • P' = P' := by
      apply Subtype.ext
      rw [pow_succ, pow_two, mul_smul, mul_smul, hval, hval, hval]
      change s.val • s.val • s.val • P = P
      conv_rhs => rw [← hf]
      rw [hs1, map_nsmul, map_nsmul, hs1, map_nsmul, hs1]
    have h4 : (s ^ 3 - 1) • P' = 0 := by rw [sub_smul, h3, one_smul, sub_self]
    rcases smul_zero_cases l T _ _ h4 with e | e
    · exact sub_eq_zero.1 e
    · exact absurd (congrArg Subtype.val e) hP
  rw [h1] at hle
  have h2 : 2 ≤ Module.finrank (ZMod l) T := (Nat.pow_le_pow_iff_right hl.one_lt).1 hle
  exact ((pow_dvd_pow l h2).trans (by rw [← h1])).trans (AddSubgroup.card_addSubgroup_dvd_card T)

/-- Cube roots of one modulo a prime `ℓ` that is not one modulo three. -/
theorem cube_root_one {l : ℕ} (hl : l.Prime) (h : (l - 1) % 3 ≠ 0) (c : ZMod l) (hc : c ^ 3 = 1) : c = 1 := by
  have := Fact.mk hl
  have h0 : c ≠ 0 := by
    rintro rfl
    simp at hc
  have h1 := orderOf_dvd_of_pow_eq_one hc
  have h2 := orderOf_dvd_of_pow_eq_one (ZMod.pow_card_sub_one_eq_one h0)
  rcases (Nat.dvd_prime Nat.prime_three).1 h1 with e | e
  · exact orderOf_eq_one_iff.1 e
  · rw [e] at h2
    omega

/-- Cube roots of one modulo a prime, given two of them. -/
theorem cube_root_of {l : ℕ} (hl : l.Prime) {c1 c2 : ℕ} (h1 : (c1 + c2 + 1) % l = 0) (h2 : c1 * c2 % l = 1) (c : ZMod l) (hc : c ^ 3 = 1) :
    c = 1 ∨ c = (c1 : ZMod l) ∨ c = (c2 : ZMod l) := by
  have := Fact.mk hl
  have e1 : (c1 + c2 + 1 : ZMod l) = 0 := by
    have := (ZMod.natCast_eq_zero_iff (c1 + c2 + 1) l).2 (Nat.dvd_of_mod_eq_zero h1)
    push_cast at this
    exact this
  have e2 : (c1 * c2 : ZMod l) = 1 := by
    have : ((c1 * c2 % l : ℕ) : ZMod l) = ((1 : ℕ) : ZMod l) := by rw [h2]
    rw [ZMod.natCast_mod] at this
    push_cast at this
    exact this
  have : (c - 1) * ((c - c1) * (c - c2)) = 0 := by
    linear_combination hc + (c - 1) * e2 - (c - 1) * c * e1
  rcases mul_eq_zero.1 this with h | h
  · exact .inl (sub_eq_zero.1 h)
  · rcases mul_eq_zero.1 h with h | h
    · exact .inr (.inl (sub_eq_zero.1 h))
    · exact .inr (.inr (sub_eq_zero.1 h))

/-- The test of a point of prime order `l` that is moved by the automorphism; `c1`, `c2` are the cube roots of one modulo `l` that
have to be excluded. -/
def jTwo {A : Type} (o : FieldOps A) (a u v one : A) (f : ℕ) (βu : A) (cs : List ℕ) : Bool :=
  o.unit (o.sub βu u) && cs.all fun c => jNe o a u v one f c βu

theorem sq_dvd_of_check [Finite F] {A : Type} {o : FieldOps A} {φ : A → F} (ho : o.Sound φ) {zero one β : A} {b : F} {u v : A}
    (h0 : φ zero = 0) (h1 : φ one = 1) (hd : (64 : F) * 0 ^ 3 + 432 * b ^ 2 ≠ 0) (hβ : φ β ^ 3 = 1) (hn : (swCurve 0 b).Nonsingular (φ u) (φ v))
    {f l : ℕ} (hl : l.Prime) (hord : jOrder o zero u v one f l = true) (cs : List ℕ)
    (hcs : ∀ c : ZMod l, c ^ 3 = 1 → c = 1 ∨ ∃ k ∈ cs, c = (k : ZMod l) ∧ k < l)
    (hk : jTwo o zero u v one f (o.mul β u) cs = true) : l ^ 2 ∣ Nat.card (swCurve 0 b).Point := by
  have := Fact.mk hl
  have := (sw_card_le (F := F) 0 b).1
  rw [jTwo, Bool.and_eq_true, List.all_eq_true] at hk
  refine sq_dvd_card_of_order hl (Affine.Point.some_ne_zero hn) ?_ (swRot hd hβ) ?_ fun c hc => ?_
  · have key : ∀ (a : F) (_ : a = φ zero) (hq : (swCurve a b).Nonsingular (φ u) (φ v)), l • Affine.Point.some _ _ hq = 0 := by
      rintro a rfl hq
      exact jOrder_sound ho h1 hq hl.one_lt.le hord
    exact key 0 h0.symm _
  · simp only [swRot_some]
    refine sw_some_congr _ _ ?_ rfl
    linear_combination φ u * hβ
  · rw [swRot_some]
    rcases hcs c hc with rfl | ⟨k, hk1, rfl, hlt⟩
    · rw [ZMod.val_one, one_nsmul]
      intro he
      simp only [Affine.Point.some.injEq] at he
      apply ho.unit _ hk.1
      rw [ho.sub, ho.mul, he.1, sub_self]
    · rw [ZMod.val_natCast_of_lt hlt]
      have key : ∀ (a : F) (_ : a = φ zero) (hq : (swCurve a b).Nonsingular (φ u) (φ v))
          (hw : (swCurve a b).Nonsingular (φ (o.mul β u)) (φ v)),
          Affine.Point.some _ _ hw ≠ k • Affine.Point.some _ _ hq := by
        rintro a rfl hq hw
        exact jNe_sound ho h1 hq (hk.2 k hk1) hw
      have hw : (swCurve 0 b).Nonsingular (φ (o.mul β u)) (φ v) := by rw [ho.mul]; exact sw_rot_nonsingular hd hβ hn
      have := key 0 h0.symm hn hw
      intro he
      apply this
      rw [← he]
      exact sw_some_congr _ _ (ho.mul _ _) rfl

end

/-! ### the first curve -/

/-- The cofactor of the first group (`g1::Parameters::COFACTOR`). -/
def blsH1 : ℕ := 0x396c8c005555e1568c00aaab0000aaab

/-- A cube root of one. -/
def blsBeta : ℕ := 0x5f19672fdf76ce51ba69c6076a0f77eaddb3a93be6f89688de17d813620a00022e01fffffffefffe

theorem b1_ok : (64 : BlsFq) * 0 ^ 3 + 432 * 4 ^ 2 ≠ 0 := by
  have := (opsN_sound (F := BlsFq) (n := blsP) (by decide) (ZMod.natCast_self blsP)).unit (432 * 4 ^ 2) (by decide +kernel)
  push_cast at this
  intro h
  exact this (by linear_combination h)

theorem blsBeta_cube : ((blsBeta : ℕ) : BlsFq) ^ 3 = 1 := by
  have := (opsN_sound (F := BlsFq) (n := blsP) (by decide) (ZMod.natCast_self blsP)).eq (blsBeta ^ 3) 1 (by decide +kernel)
  push_cast at this
  exact this

theorem on_e1 {x y : ℕ} (h : onCurve blsP 0 4 x y = true) : blsE1.Nonsingular (x : BlsFq) (y : BlsFq) := by
  have := onCurve_sound (F := BlsFq) (n := blsP) (by decide) (ZMod.natCast_self blsP) h
  simpa using this

theorem sq_dvd_e1 {x y f l : ℕ} (hl : l.Prime) (hon : onCurve blsP 0 4 x y = true) (hord : jOrder (opsN blsP) 0 x y 1 f l = true) (cs : List ℕ)
    (hcs : ∀ c : ZMod l, c ^ 3 = 1 → c = 1 ∨ ∃ k ∈ cs, c = (k : ZMod l) ∧ k < l)
    (hk : jTwo (opsN blsP) 0 x y 1 f ((opsN blsP).mul blsBeta x) cs = true) : l ^ 2 ∣ Nat.card blsE1.Point :=
  sq_dvd_of_check (F := BlsFq) (o := opsN blsP) (φ := fun n : ℕ => (n : BlsFq)) (opsN_sound (by decide) (ZMod.natCast_self blsP))
    (by simp) (by simp) b1_ok blsBeta_cube (on_e1 hon) hl hord cs hcs hk

theorem dvd_e1 {x y f l : ℕ} (hl : l.Prime) (hon : onCurve blsP 0 4 x y = true) (hord : jOrder (opsN blsP) 0 x y 1 f l = true) :
    l ∣ Nat.card blsE1.Point := by
  refine dvd_card_of_order hl (Affine.Point.some_ne_zero (on_e1 hon)) ?_
  have key : ∀ (a : BlsFq) (_ : a = ((0 : ℕ) : BlsFq)) (hq : (swCurve a 4).Nonsingular ((x : ℕ) : BlsFq) ((y : ℕ) : BlsFq)),
      l • Affine.Point.some _ _ hq = 0 := by
    rintro a rfl hq
    exact jOrder_sound (opsN_sound (by decide) (ZMod.natCast_self blsP)) (a := 0) (one := 1) (by simp) hq hl.one_lt.le hord
  exact key 0 (by simp) _

theorem e1_11 : 11 ^ 2 ∣ Nat.card blsE1.Point :=
  sq_dvd_e1 (x := 0xb6412c0bb3fcd13acd91b2720679bdb7f347447de70ba0916c6f0de18098df29f779dd1d97759e4dae92c66ce6720b9)
    (y := 0x931a8b8f441d65609b53801d3ce9808402527cb04d4b94ed160ad1353080c78dcac6997367b8e48f0b85d4d6a431c11)
    (f := 40) (by norm_num) (by decide +kernel) (by decide +kernel) []
    (fun c hc => .inl (cube_root_one (by norm_num) (by decide) c hc))
    (by decide +kernel)

theorem e1_10177 : 10177 ^ 2 ∣ Nat.card blsE1.Point :=
  sq_dvd_e1 (x := 0xb7c3fb446481e314b1b72cc9dba3b512e71b7d8a7cf57515a45b812aea7b837e1e794f4ac512d97a1dc50d12f46da4)
    (y := 0x2a79dfa58e37493cd5091a4a59c570c6804cc9c185b323e606dba2b586066e5d64d2d2501dc9846d4ab8e2d72793b06)
    (f := 40) (by norm_num) (by decide +kernel) (by decide +kernel) [4773, 5403]
    (fun c hc => (cube_root_of (by norm_num) (c1 := 4773) (c2 := 5403) (by decide) (by decide) c hc).imp_right (by rintro (e | e); exacts [⟨4773, by decide, e, by decide⟩, ⟨5403, by decide, e, by decide⟩]))
    (by decide +kernel)

theorem e1_859267 : 859267 ^ 2 ∣ Nat.card blsE1.Point :=
  sq_dvd_e1 (x := 0x1399767bfde20c93df582dd63bb4d7713d71626d1a5b4b4447fc9772753511d66499fe6c966c9c90544f5980fc5b020)
    (y := 0x1818edfb80a0b720f5d0a9a89ddc2332f37931d6b80be795a9ff03ee3c7e36f0c50864f990bb975e5ab0241c8c4743a7)
    (f := 40) (by norm_num) (by decide +kernel) (by decide +kernel) [119571, 739695]
    (fun c hc => (cube_root_of (by norm_num) (c1 := 119571) (c2 := 739695) (by decide) (by decide) c hc).imp_right (by rintro (e | e); exacts [⟨119571, by decide, e, by decide⟩, ⟨739695, by decide, e, by decide⟩]))
    (by decide +kernel)

theorem e1_52437899 : 52437899 ^ 2 ∣ Nat.card blsE1.Point :=
  sq_dvd_e1 (x := 0x889590e5f4cee5cc131146c7813b3ac9336a8a0f401e702e84fa1d441d4ced59018b454ae13573e858949214c68a9f4)
    (y := 0x6862e99c36e793a951e0317ebe60e838d57035424e4a7703d4d6bd80ac9051ea674661c4d30508ee146726d9b56fa4a)
    (f := 40) (by norm_num) (by decide +kernel) (by decide +kernel) []
    (fun c hc => .inl (cube_root_one (by norm_num) (by decide) c hc))
    (by decide +kernel)

theorem e1_3 : 3 ∣ Nat.card blsE1.Point := dvd_e1 (x := 0) (y := 2) (f := 40) (by norm_num) (by decide +kernel) (by decide +kernel)

theorem e1_r : blsR ∣ Nat.card blsE1.Point :=
  dvd_card_of_order C61_prime (P := blsG1.1) (fun h => blsG1_ne_zero (Subtype.ext h)) g1_order

/-- **The first curve has exactly `h r` points.** -/
theorem card_e1 : Nat.card blsE1.Point = blsH1 * blsR := by
  have := finite_e1
  have h := (sw_card_le (F := BlsFq) 0 4).2
  rw [Nat.card_zmod] at h
  have h1 := Nat.Coprime.mul_dvd_of_dvd_of_dvd (by decide +kernel) e1_3 e1_11
  have h2 := Nat.Coprime.mul_dvd_of_dvd_of_dvd (by decide +kernel) h1 e1_10177
  have h3 := Nat.Coprime.mul_dvd_of_dvd_of_dvd (by decide +kernel) h2 e1_859267
  have h4 := Nat.Coprime.mul_dvd_of_dvd_of_dvd (by decide +kernel) h3 e1_52437899
  have h5 := Nat.Coprime.mul_dvd_of_dvd_of_dvd (by decide +kernel) h4 e1_r
  rw [show 3 * 11 ^ 2 * 10177 ^ 2 * 859267 ^ 2 * 52437899 ^ 2 = blsH1 by decide +kernel] at h5
  obtain ⟨k, hk⟩ := h5
  have hpos : 0 < Nat.card blsE1.Point := Nat.card_pos
  have hlt : 2 * blsP + 1 < blsH1 * blsR * 2 := by decide +kernel
  have h6 : k < 2 := by
    have : blsH1 * blsR * k < blsH1 * blsR * 2 := by rw [← hk]; exact h.trans_lt hlt
    exact Nat.lt_of_mul_lt_mul_left this
  have h7 : k ≠ 0 := by
    rintro rfl
    rw [hk, mul_zero] at hpos
    exact absurd hpos (lt_irrefl 0)
  rw [hk, show k = 1 by omega, mul_one]

/-! ### the second curve -/

/-- The cofactor of the second group (`g2::Parameters::COFACTOR`). -/
def blsH2 : ℕ := 0x5d543a95414e7f1091d50792876a202cd91de4547085abaa68a205b2e5a7ddfa628f1cb4d9e82ef21537e293a6691ae1616ec6e786f0c70cf1c38e31c7238e5

theorem blsBeta_cube2 : toFq2 (blsBeta, 0) ^ 3 = 1 := by
  have := opsP2_sound.eq (opsP2.mul (blsBeta, 0) (opsP2.mul (blsBeta, 0) (blsBeta, 0))) (1, 0) (by decide +kernel)
  simp only [opsP2_sound.mul, toFq2_one] at this
  rw [← this]
  ring

theorem sq_dvd_e2 {x y : ℕ × ℕ} {f l : ℕ} (hl : l.Prime) (hon : onCurve2 x y = true) (hord : jOrder opsP2 (0, 0) x y (1, 0) f l = true)
    (cs : List ℕ) (hcs : ∀ c : ZMod l, c ^ 3 = 1 → c = 1 ∨ ∃ k ∈ cs, c = (k : ZMod l) ∧ k < l)
    (hk : jTwo opsP2 (0, 0) x y (1, 0) f (opsP2.mul (blsBeta, 0) x) cs = true) : l ^ 2 ∣ Nat.card blsE2.Point := by
  have := card_fq2.1
  exact sq_dvd_of_check opsP2_sound toFq2_zero toFq2_one b2_ok blsBeta_cube2 (onCurve2_sound hon) hl hord cs hcs hk

theorem dvd_e2 {x y : ℕ × ℕ} {f l : ℕ} (hl : l.Prime) (hon : onCurve2 x y = true) (hord : jOrder opsP2 (0, 0) x y (1, 0) f l = true) :
    l ∣ Nat.card blsE2.Point :=
  dvd_card_of_order hl (Affine.Point.some_ne_zero (onCurve2_sound hon)) (order_of_check2 hon hl.one_lt.le hord)

theorem e2_13 : 13 ^ 2 ∣ Nat.card blsE2.Point :=
  sq_dvd_e2 (x := (0x157573f4c77585787c2c988585c1f6afe39f5b91aacb37509b42ec71fceb51a1576fda15dac1031f8d26785d6b139784,
      0xe074268358ced055a27ab8de3bbdeb6d0c2949685103095e491dc537fc8ee474a73ce0b2826fae8eabfb3078a910b64))
    (y := (0x5f754dad2dca3ec8d91aa69f9a20c71e446adc544d89e7599a679e6993efd583e8262de71b409590c90fa9b6eda977d,
      0x9e0bb9c42f9ea2b05b2db46e0b0d8b48039fdad6642504847e80587d42075ea04ad3374ae459a306b03f82bea7838e4))
    (f := 40) (by norm_num) (by decide +kernel) (by decide +kernel) [3, 9]
    (fun c hc => (cube_root_of (by norm_num) (c1 := 3) (c2 := 9) (by decide) (by decide) c hc).imp_right (by rintro (e | e); exacts [⟨3, by decide, e, by decide⟩, ⟨9, by decide, e, by decide⟩]))
    (by decide +kernel)

theorem e2_23 : 23 ^ 2 ∣ Nat.card blsE2.Point :=
  sq_dvd_e2 (x := (0x131170be1c8225fed8236df6fb848dc0cee91cf99e1ba5372d02ecaaed2a9610b261c9588e364968158be61205a8c967,
      0xedc1864e5f49f13ced292b7663ab670ae2ad1868a39d3feeabf0b9d6b03963065e90e8a940f3ca44ad9b4809d3a0bbb))
    (y := (0x1165a71a750304235b2693166b6b2038c883d1385c92a8140555ee89591d4883fe5aff35c87ff04a9820e4de8d9fb92c,
      0x21229e6cd37824f6dbf358390d956536dc5c90fdb19beb38002fbb29833cd6e213c5adce5c2fc94f497bd0e9eab1e25))
    (f := 40) (by norm_num) (by decide +kernel) (by decide +kernel) []
    (fun c hc => .inl (cube_root_one (by norm_num) (by decide) c hc))
    (by decide +kernel)

theorem e2_2713 : 2713 ∣ Nat.card blsE2.Point :=
  dvd_e2 (x := (0xa9e589ae125e6b2ee87b4d5ff6bf7260f4bd5a2e674b91fa45523c2e1a8047dcd19b0291f9fd70e2e054095a37e6056,
      0x13655a3dc31a0f2e0d6e9f2cfacdc6074edb72aebf897bfbd53d32e37cea5a2006924beda6a2031f0b2dea19797cedeb))
    (y := (0x2649c337c83707eb0c5f697a5eae8b3c1580d7aa698b60436f92ac5461917fc4415a4e96d9d2e4b0582c262e3bd62ac,
      0x12c208050fd39864bbced8105bf9287ebfdbc180a049b7bac55eb4d7a7d1ea2a724de778fb89d745f1bdf5d74d19483a))
    (f := 40) (by norm_num) (by decide +kernel) (by decide +kernel)

theorem e2_11953 : 11953 ∣ Nat.card blsE2.Point :=
  dvd_e2 (x := (0x1144ad62312ddb13e1e9f958d0e276680265b8ebff30e15298fd3614552c2b028bf0c5fa111b4408aac32ee11787f5f0,
      0x165557baa6f38117926ca69168553ebefb9e9f85b266730b2dcb6949ea555730520bd4403bc96444b5754538c2a003ae))
    (y := (0x161dac7a4272085457ca02744b0f9aeb8d348abb059a0736cebe81296bcb9e7b5162c27efc6be38cdc3f79d80c190213,
      0xfe15727eb6e19b0f3da4c62d52400726f5538bb2d48c5c87a1f36f6608a8b8aae5f40cd93ffd0b8c477dc382419a194))
    (f := 40) (by norm_num) (by decide +kernel) (by decide +kernel)

theorem e2_262069 : 262069 ∣ Nat.card blsE2.Point :=
  dvd_e2 (x := (0x12d74148138a08341aa0913be5a6cf0f98a41b53bde0cdce1b583d23cc8a31e3d07ae412b87726b756cdf620731bb149,
      0xffe230c4e1059651ba7857e66c866c50a7f885936118c40875bfebc2f3d73a1bbcea5e07c79fc7b006e304cb55036ec))
    (y := (0x19c25be5812c997d6fbaaeab568bb5c113af680fb607f72c73055a2c056f2282d01f23965339b92c67840e816e42bcf3,
      0x139e94eb583125beacead91bd384a7079b70e25771697a3fab97de63e64f5187596a25945e560ae4c8ce610cd5ed0301))
    (f := 40) (by norm_num) (by decide +kernel) (by decide +kernel)

theorem e2_L : blsL ∣ Nat.card blsE2.Point :=
  dvd_e2 (x := blsLx) (y := blsLy) (f := 448) blsL_prime (by decide +kernel) (by decide +kernel)

theorem e2_r : blsR ∣ Nat.card blsE2.Point :=
  dvd_card_of_order C61_prime (P := blsG2.1) (fun h => blsG2_ne_zero (Subtype.ext h)) blsG2.2

/-- **The second curve has exactly `h r` points.** -/
theorem card_e2 : Nat.card blsE2.Point = blsH2 * blsR := by
  have := card_fq2.1
  have := finite_e2
  have h := (sw_card_le (F := BlsFq2) 0 blsB2).2
  rw [card_fq2.2] at h
  have h1 := Nat.Coprime.mul_dvd_of_dvd_of_dvd (by decide +kernel) e2_13 e2_23
  have h2 := Nat.Coprime.mul_dvd_of_dvd_of_dvd (by decide +kernel) h1 e2_2713
  have h3 := Nat.Coprime.mul_dvd_of_dvd_of_dvd (by decide +kernel) h2 e2_11953
  have h4 := Nat.Coprime.mul_dvd_of_dvd_of_dvd (by decide +kernel) h3 e2_262069
  have h5 := Nat.Coprime.mul_dvd_of_dvd_of_dvd (by decide +kernel) h4 e2_L
  have h6 := Nat.Coprime.mul_dvd_of_dvd_of_dvd (by decide +kernel) h5 e2_r
  rw [show 13 ^ 2 * 23 ^ 2 * 2713 * 11953 * 262069 * blsL = blsH2 by decide +kernel] at h6
  obtain ⟨k, hk⟩ := h6
  have hpos : 0 < Nat.card blsE2.Point := Nat.card_pos
  have hlt : 2 * blsP ^ 2 + 1 < blsH2 * blsR * 2 := by decide +kernel
  have h7 : k < 2 := by
    have : blsH2 * blsR * k < blsH2 * blsR * 2 := by rw [← hk]; exact h.trans_lt hlt
    exact Nat.lt_of_mul_lt_mul_left this
  have h8 : k ≠ 0 := by
    rintro rfl
    rw [hk, mul_zero] at hpos
    exact absurd hpos (lt_irrefl 0)
  rw [hk, show k = 1 by omega, mul_one]

end Verif
