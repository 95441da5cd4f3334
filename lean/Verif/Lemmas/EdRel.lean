import Verif.Lemmas.EdProj

/-!
# Representations of field elements

`Rel` says what a type of field elements must satisfy so that the formulas of `Model/EdProj.lean` compute on it what they compute in
the field.  The three relations are for elements with limbs of growing size: results of products, sums of two of them, and sums of
three.
-/

namespace Verif.EdProj

open WeierstrassCurve
open Spec (DenExt)

class Rel (F : Type) [Add F] [Sub F] [Neg F] [Mul F] [Zero F] [One F] [FE F] where
  T : F → EdF → Prop
  M : F → EdF → Prop
  L : F → EdF → Prop
  tm : ∀ {a x}, T a x → M a x
  ml : ∀ {a x}, M a x → L a x
  zero : T 0 0
  one : T 1 1
  d : T FE.d FE.d
  d2 : T FE.d2 FE.d2
  sqrtM1 : T FE.sqrtM1 FE.sqrtM1
  baseX : T FE.baseX FE.baseX
  baseY : T FE.baseY FE.baseY
  baseT : T FE.baseT FE.baseT
  ofNat : ∀ n, T (FE.ofNat n) (FE.ofNat n)
  toNat : ∀ {a x}, L a x → FE.toNat a = FE.toNat x
  add : ∀ {a b x y}, T a x → T b y → M (a + b) (x + y)
  add' : ∀ {a b x y}, M a x → T b y → L (a + b) (x + y)
  sub : ∀ {a b x y}, L a x → L b y → T (a - b) (x - y)
  neg : ∀ {a x}, L a x → T (-a) (-x)
  mul : ∀ {a b x y}, L a x → L b y → T (a * b) (x * y)
  sq : ∀ {a x}, L a x → T (FE.sq a) (FE.sq x)
  sq2 : ∀ {a x}, L a x → M (FE.sq2 a) (FE.sq2 x)
  pow2k : ∀ {a x} k, 0 < k → L a x → T (FE.pow2k k a) (FE.pow2k k x)

/-- Elements of the field represent themselves. -/
instance : Rel EdF where
  T := Eq
  M := Eq
  L := Eq
  tm h := h
  ml h := h
  zero := rfl
  one := rfl
  d := rfl
  d2 := rfl
  sqrtM1 := rfl
  baseX := rfl
  baseY := rfl
  baseT := rfl
  ofNat _ := rfl
  toNat h := by rw [h]
  add h h' := by rw [h, h']
  add' h h' := by rw [h, h']
  sub h h' := by rw [h, h']
  neg h := by rw [h]
  mul h h' := by rw [h, h']
  sq h := by rw [h]
  sq2 h := by rw [h]
  pow2k k _ h := by rw [h]

variable {F : Type} [Add F] [Sub F] [Neg F] [Mul F] [Zero F] [One F] [FE F] [Rel F]

open Rel (T M L)

theorem tl {a : F} {x : EdF} (h : T a x) : L a x := Rel.ml (Rel.tm h)

theorem pow22501_rel {a : F} {x : EdF} (h : L a x) : T (pow22501 a).1 (pow22501 x).1 ∧ T (pow22501 a).2 (pow22501 x).2 := by
  have h0 := Rel.sq h
  have h1 := Rel.sq (tl (Rel.sq (tl h0)))
  have h2 := Rel.mul h (tl h1)
  have h3 := Rel.mul (tl h0) (tl h2)
  have h4 := Rel.sq (tl h3)
  have h5 := Rel.mul (tl h2) (tl h4)
  have h6 := Rel.pow2k 5 (by norm_num) (tl h5)
  have h7 := Rel.mul (tl h6) (tl h5)
  have h8 := Rel.pow2k 10 (by norm_num) (tl h7)
  have h9 := Rel.mul (tl h8) (tl h7)
  have h10 := Rel.pow2k 20 (by norm_num) (tl h9)
  have h11 := Rel.mul (tl h10) (tl h9)
  have h12 := Rel.pow2k 10 (by norm_num) (tl h11)
  have h13 := Rel.mul (tl h12) (tl h7)
  have h14 := Rel.pow2k 50 (by norm_num) (tl h13)
  have h15 := Rel.mul (tl h14) (tl h13)
  have h16 := Rel.pow2k 100 (by norm_num) (tl h15)
  have h17 := Rel.mul (tl h16) (tl h15)
  have h18 := Rel.pow2k 50 (by norm_num) (tl h17)
  exact ⟨Rel.mul (tl h18) (tl h13), h3⟩

omit [Add F] [Sub F] [Neg F] [Zero F] [One F] [Rel F] in
theorem invert_def (x : F) : invert x = FE.pow2k 5 (pow22501 x).1 * (pow22501 x).2 := rfl

omit [Add F] [Sub F] [Neg F] [Zero F] [One F] [Rel F] in
theorem powP58_def (x : F) : powP58 x = x * FE.pow2k 2 (pow22501 x).1 := rfl

theorem invert_rel {a : F} {x : EdF} (h : L a x) : T (invert a) (invert x) := by
  have h' := pow22501_rel h
  rw [invert_def a, invert_def x]
  generalize pow22501 a = p at h' ⊢
  generalize pow22501 x = q at h' ⊢
  exact Rel.mul (tl (Rel.pow2k 5 (by norm_num) (tl h'.1))) (tl h'.2)

theorem powP58_rel {a : F} {x : EdF} (h : L a x) : T (powP58 a) (powP58 x) := by
  have h' := (pow22501_rel h).1
  rw [powP58_def a, powP58_def x]
  generalize (pow22501 a).1 = p at h' ⊢
  generalize (pow22501 x).1 = q at h' ⊢
  exact Rel.mul h (tl (Rel.pow2k 2 (by norm_num) (tl h')))

omit [Add F] [Sub F] [Neg F] [Mul F] [Zero F] [One F] [Rel F] in
theorem isNegative_congr {F' : Type} [FE F'] {a : F} {x : F'} (h : FE.toNat a = FE.toNat x) : isNegative a = isNegative x := by
  rw [isNegative, isNegative, h]

omit [Add F] [Sub F] [Neg F] [Mul F] [Zero F] [One F] [Rel F] in
theorem feEq_congr {F' : Type} [FE F'] {a b : F} {x y : F'} (h : FE.toNat a = FE.toNat x) (h' : FE.toNat b = FE.toNat y) :
    feEq a b = feEq x y := by
  rw [feEq, feEq, h, h']

theorem isNegative_rel {a : F} {x : EdF} (h : L a x) : isNegative a = isNegative x := isNegative_congr (Rel.toNat h)

theorem feEq_rel {a b : F} {x y : EdF} (h : L a x) (h' : L b y) : feEq a b = feEq x y := feEq_congr (Rel.toNat h) (Rel.toNat h')

theorem sqrtRatio_rel {a b : F} {u v : EdF} (h : L a u) (h' : L b v) :
    (sqrtRatio a b).1 = (sqrtRatio u v).1 ∧ T (sqrtRatio a b).2 (sqrtRatio u v).2 := by
  have h3 := Rel.mul (tl (Rel.sq h')) h'
  have h7 := Rel.mul (tl (Rel.sq (tl h3))) h'
  have hr := Rel.mul (tl (Rel.mul h (tl h3))) (tl (powP58_rel (tl (Rel.mul h (tl h7)))))
  have hc := Rel.mul h' (tl (Rel.sq (tl hr)))
  have e1 := feEq_rel (tl hc) h
  have e2 := feEq_rel (tl hc) (tl (Rel.neg h))
  have e3 := feEq_rel (tl hc) (tl (Rel.mul (tl (Rel.neg h)) (tl Rel.sqrtM1)))
  have hr' := Rel.mul (tl (Rel.sqrtM1 (F := F))) (tl hr)
  unfold sqrtRatio
  simp only [e1, e2, e3, true_and]
  split
  · rw [isNegative_rel (tl hr')]
    split
    · exact Rel.neg (tl hr')
    · exact hr'
  · rw [isNegative_rel (tl hr)]
    split
    · exact Rel.neg (tl hr)
    · exact hr

/-! ## Points -/

def RExt (e : Ext F) (e' : Ext EdF) : Prop := T e.x e'.x ∧ T e.y e'.y ∧ T e.z e'.z ∧ T e.t e'.t

def RProj (e : Proj F) (e' : Proj EdF) : Prop := T e.x e'.x ∧ T e.y e'.y ∧ T e.z e'.z

def RCompl (e : Compl F) (e' : Compl EdF) : Prop := L e.x e'.x ∧ L e.y e'.y ∧ L e.z e'.z ∧ L e.t e'.t

def RNiels (e : Niels F) (e' : Niels EdF) : Prop := L e.yPlusX e'.yPlusX ∧ L e.yMinusX e'.yMinusX ∧ L e.z e'.z ∧ L e.t2d e'.t2d

def RANiels (e : ANiels F) (e' : ANiels EdF) : Prop := L e.yPlusX e'.yPlusX ∧ L e.yMinusX e'.yMinusX ∧ L e.xy2d e'.xy2d

/-- Coordinates of a point, by represented field elements. -/
def _root_.Verif.Spec.Rep (e : Ext F) (P : edW.Point) : Prop := ∃ e', RExt e e' ∧ DenExt e' P

open Spec (Rep)

def RepProj (e : Proj F) (P : edW.Point) : Prop := ∃ e', RProj e e' ∧ DenProj e' P

def RepCompl (e : Compl F) (P : edW.Point) : Prop := ∃ e', RCompl e e' ∧ DenCompl e' P

def RepNiels (e : Niels F) (P : edW.Point) : Prop := ∃ e', RNiels e e' ∧ DenNiels e' P

def RepANiels (e : ANiels F) (P : edW.Point) : Prop := ∃ e', RANiels e e' ∧ DenANiels e' P

theorem RCompl.toExt {c : Compl F} {c'} (h : RCompl c c') : RExt c.toExt c'.toExt := by
  obtain ⟨hx, hy, hz, ht⟩ := h
  exact ⟨Rel.mul hx ht, Rel.mul hy hz, Rel.mul hz ht, Rel.mul hx hy⟩

theorem RCompl.toProj {c : Compl F} {c'} (h : RCompl c c') : RProj c.toProj c'.toProj := by
  obtain ⟨hx, hy, hz, ht⟩ := h
  exact ⟨Rel.mul hx ht, Rel.mul hy hz, Rel.mul hz ht⟩

theorem RProj.toExt {c : Proj F} {c'} (h : RProj c c') : RExt c.toExt c'.toExt := by
  obtain ⟨hx, hy, hz⟩ := h
  exact ⟨Rel.mul (tl hx) (tl hz), Rel.mul (tl hy) (tl hz), Rel.sq (tl hz), Rel.mul (tl hx) (tl hy)⟩

theorem RProj.double {c : Proj F} {c'} (h : RProj c c') : RCompl c.double c'.double := by
  obtain ⟨hx, hy, hz⟩ := h
  have xx := Rel.sq (tl hx)
  have yy := Rel.sq (tl hy)
  have zz := Rel.sq2 (tl hz)
  have s := Rel.sq (Rel.ml (Rel.add hx hy))
  have p := Rel.ml (Rel.add yy xx)
  have m := Rel.sub (tl yy) (tl xx)
  exact ⟨tl (Rel.sub (tl s) p), p, tl m, tl (Rel.sub (Rel.ml zz) (tl m))⟩

theorem RExt.toProj {e : Ext F} {e'} (h : RExt e e') : RProj e.toProj e'.toProj := ⟨h.1, h.2.1, h.2.2.1⟩

theorem RNiels.neg {n : Niels F} {n'} (h : RNiels n n') : RNiels n.neg n'.neg := ⟨h.2.1, h.1, h.2.2.1, tl (Rel.neg h.2.2.2)⟩

theorem RANiels.neg {n : ANiels F} {n'} (h : RANiels n n') : RANiels n.neg n'.neg := ⟨h.2.1, h.1, tl (Rel.neg h.2.2)⟩

theorem RExt.addN {e : Ext F} {e'} {n : Niels F} {n'} (h : RExt e e') (h' : RNiels n n') : RCompl (e.addN n) (e'.addN n') := by
  obtain ⟨hx, hy, hz, ht⟩ := h
  obtain ⟨h1, h2, h3, h4⟩ := h'
  have pp := Rel.mul (Rel.ml (Rel.add hy hx)) h1
  have mm := Rel.mul (tl (Rel.sub (tl hy) (tl hx))) h2
  have tt := Rel.mul (tl ht) h4
  have zz := Rel.mul (tl hz) h3
  have z2 := Rel.add zz zz
  exact ⟨tl (Rel.sub (tl pp) (tl mm)), Rel.ml (Rel.add pp mm), Rel.add' z2 tt, tl (Rel.sub (Rel.ml z2) (tl tt))⟩

theorem RExt.subN {e : Ext F} {e'} {n : Niels F} {n'} (h : RExt e e') (h' : RNiels n n') : RCompl (e.subN n) (e'.subN n') := by
  obtain ⟨hx, hy, hz, ht⟩ := h
  obtain ⟨h1, h2, h3, h4⟩ := h'
  have pp := Rel.mul (Rel.ml (Rel.add hy hx)) h2
  have mm := Rel.mul (tl (Rel.sub (tl hy) (tl hx))) h1
  have tt := Rel.mul (tl ht) h4
  have zz := Rel.mul (tl hz) h3
  have z2 := Rel.add zz zz
  exact ⟨tl (Rel.sub (tl pp) (tl mm)), Rel.ml (Rel.add pp mm), tl (Rel.sub (Rel.ml z2) (tl tt)), Rel.add' z2 tt⟩

theorem RExt.addA {e : Ext F} {e'} {n : ANiels F} {n'} (h : RExt e e') (h' : RANiels n n') : RCompl (e.addA n) (e'.addA n') := by
  obtain ⟨hx, hy, hz, ht⟩ := h
  obtain ⟨h1, h2, h4⟩ := h'
  have pp := Rel.mul (Rel.ml (Rel.add hy hx)) h1
  have mm := Rel.mul (tl (Rel.sub (tl hy) (tl hx))) h2
  have tt := Rel.mul (tl ht) h4
  have z2 := Rel.add hz hz
  exact ⟨tl (Rel.sub (tl pp) (tl mm)), Rel.ml (Rel.add pp mm), Rel.add' z2 tt, tl (Rel.sub (Rel.ml z2) (tl tt))⟩

theorem RExt.subA {e : Ext F} {e'} {n : ANiels F} {n'} (h : RExt e e') (h' : RANiels n n') : RCompl (e.subA n) (e'.subA n') := by
  obtain ⟨hx, hy, hz, ht⟩ := h
  obtain ⟨h1, h2, h4⟩ := h'
  have pp := Rel.mul (Rel.ml (Rel.add hy hx)) h2
  have mm := Rel.mul (tl (Rel.sub (tl hy) (tl hx))) h1
  have tt := Rel.mul (tl ht) h4
  have z2 := Rel.add hz hz
  exact ⟨tl (Rel.sub (tl pp) (tl mm)), Rel.ml (Rel.add pp mm), tl (Rel.sub (Rel.ml z2) (tl tt)), Rel.add' z2 tt⟩

theorem RExt.toNiels {e : Ext F} {e'} (h : RExt e e') : RNiels e.toNiels e'.toNiels := by
  obtain ⟨hx, hy, hz, ht⟩ := h
  exact ⟨Rel.ml (Rel.add hy hx), tl (Rel.sub (tl hy) (tl hx)), tl hz, tl (Rel.mul (tl ht) (tl Rel.d2))⟩

theorem RExt.affine {e : Ext F} {e'} (h : RExt e e') :
    T (e.x * invert e.z) (e'.x * invert e'.z) ∧ T (e.y * invert e.z) (e'.y * invert e'.z) := by
  obtain ⟨hx, hy, hz, -⟩ := h
  exact ⟨Rel.mul (tl hx) (tl (invert_rel (tl hz))), Rel.mul (tl hy) (tl (invert_rel (tl hz)))⟩

theorem RExt.toANiels {e : Ext F} {e'} (h : RExt e e') : RANiels e.toANiels e'.toANiels := by
  obtain ⟨hx, hy⟩ := h.affine
  exact ⟨Rel.ml (Rel.add hy hx), tl (Rel.sub (tl hy) (tl hx)), tl (Rel.mul (tl (Rel.mul (tl hx) (tl hy))) (tl Rel.d2))⟩

theorem RExt.eq {e f : Ext F} {e' f'} (h : RExt e e') (h' : RExt f f') : e.eq f = e'.eq f' := by
  obtain ⟨hx, hy, hz, -⟩ := h
  obtain ⟨gx, gy, gz, -⟩ := h'
  rw [Ext.eq, Ext.eq, feEq_rel (tl (Rel.mul (tl hx) (tl gz))) (tl (Rel.mul (tl gx) (tl hz))),
    feEq_rel (tl (Rel.mul (tl hy) (tl gz))) (tl (Rel.mul (tl gy) (tl hz)))]

theorem RExt.compress {e : Ext F} {e'} (h : RExt e e') : e.compress = e'.compress := by
  obtain ⟨hx, hy⟩ := h.affine
  refine Subtype.ext ?_
  simp only [Ext.compress, isNegative_rel (tl hx), Rel.toNat (tl hy)]

theorem rExt_id : RExt (Ext.id : Ext F) Ext.id := ⟨Rel.zero, Rel.one, Rel.one, Rel.zero⟩

theorem rExt_base : RExt (Ext.base : Ext F) Ext.base := ⟨Rel.baseX, Rel.baseY, Rel.one, Rel.baseT⟩

omit [Zero F] [Rel F] in
theorem decompress_eq (b : Bytes 32) (s : Bool × F)
    (h : sqrtRatio (FE.sq (FE.ofNat (Codec.leVal b.1)) - 1) (FE.sq (FE.ofNat (Codec.leVal b.1)) * FE.d + 1) = s) :
    Ext.decompress b = if s.1 then
      (let x := if Codec.leVal b.1 / 2 ^ 255 = 1 then -s.2 else s.2
      some ⟨x, FE.ofNat (Codec.leVal b.1), 1, x * FE.ofNat (Codec.leVal b.1)⟩) else none := by
  subst h
  rfl

theorem decompress_rel (b : Bytes 32) :
    (∃ e e', (Ext.decompress b : Option (Ext F)) = some e ∧ (Ext.decompress b : Option (Ext EdF)) = some e' ∧ RExt e e') ∨
    ((Ext.decompress b : Option (Ext F)) = none ∧ (Ext.decompress b : Option (Ext EdF)) = none) := by
  have hy := Rel.ofNat (F := F) (Codec.leVal b.1)
  have yy := Rel.sq (tl hy)
  obtain ⟨h1, h2⟩ := sqrtRatio_rel (tl (Rel.sub (tl yy) (tl Rel.one))) (Rel.ml (Rel.add (Rel.mul (tl yy) (tl Rel.d)) Rel.one))
  rw [decompress_eq (F := F) b _ rfl, decompress_eq (F := EdF) b _ rfl, h1]
  generalize sqrtRatio (FE.sq (FE.ofNat (Codec.leVal b.1) : F) - 1) (FE.sq (FE.ofNat (Codec.leVal b.1) : F) * FE.d + 1) = s at h1 h2 ⊢
  generalize sqrtRatio (FE.sq (FE.ofNat (Codec.leVal b.1) : EdF) - 1) (FE.sq (FE.ofNat (Codec.leVal b.1) : EdF) * FE.d + 1) = s' at h1 h2 ⊢
  clear yy
  generalize (FE.ofNat (Codec.leVal b.1) : F) = y at hy ⊢
  generalize (FE.ofNat (Codec.leVal b.1) : EdF) = y' at hy ⊢
  split
  · left
    refine ⟨_, _, rfl, rfl, ?_⟩
    split
    · exact ⟨Rel.neg (tl h2), hy, Rel.one, Rel.mul (tl (Rel.neg (tl h2))) (tl hy)⟩
    · exact ⟨h2, hy, Rel.one, Rel.mul (tl h2) (tl hy)⟩
  · exact .inr ⟨rfl, rfl⟩

/-! ## The same for points of the group -/

variable {P Q : edW.Point}

theorem RepCompl.toExt {c : Compl F} : RepCompl c P → Rep c.toExt P := fun ⟨_, h, h'⟩ => ⟨_, h.toExt, h'.toExt⟩

theorem RepCompl.toProj {c : Compl F} : RepCompl c P → RepProj c.toProj P := fun ⟨_, h, h'⟩ => ⟨_, h.toProj, h'.toProj⟩

theorem RepProj.toExt {c : Proj F} : RepProj c P → Rep c.toExt P := fun ⟨_, h, h'⟩ => ⟨_, h.toExt, h'.toExt⟩

theorem RepProj.double {c : Proj F} : RepProj c P → RepCompl c.double (P + P) := fun ⟨_, h, h'⟩ => ⟨_, h.double, h'.double⟩

theorem _root_.Verif.Spec.Rep.toProj {e : Ext F} : Rep e P → RepProj e.toProj P := fun ⟨_, h, h'⟩ => ⟨_, h.toProj, h'.toProj⟩

theorem RepANiels.neg {n : ANiels F} : RepANiels n P → RepANiels n.neg (-P) := fun ⟨_, h, h'⟩ => ⟨_, h.neg, h'.neg⟩

theorem _root_.Verif.Spec.Rep.addN {e : Ext F} {n : Niels F} : Rep e P → RepNiels n Q → RepCompl (e.addN n) (P + Q) :=
  fun ⟨_, h, h'⟩ ⟨_, g, g'⟩ => ⟨_, h.addN g, h'.addN g'⟩

theorem _root_.Verif.Spec.Rep.subN {e : Ext F} {n : Niels F} : Rep e P → RepNiels n Q → RepCompl (e.subN n) (P - Q) :=
  fun ⟨_, h, h'⟩ ⟨_, g, g'⟩ => ⟨_, h.subN g, h'.subN g'⟩

theorem _root_.Verif.Spec.Rep.addA {e : Ext F} {n : ANiels F} : Rep e P → RepANiels n Q → RepCompl (e.addA n) (P + Q) :=
  fun ⟨_, h, h'⟩ ⟨_, g, g'⟩ => ⟨_, h.addA g, h'.addA g'⟩

theorem _root_.Verif.Spec.Rep.subA {e : Ext F} {n : ANiels F} : Rep e P → RepANiels n Q → RepCompl (e.subA n) (P - Q) :=
  fun ⟨_, h, h'⟩ ⟨_, g, g'⟩ => ⟨_, h.subA g, h'.subA g'⟩

theorem _root_.Verif.Spec.Rep.toNiels {e : Ext F} : Rep e P → RepNiels e.toNiels P := fun ⟨_, h, h'⟩ => ⟨_, h.toNiels, h'.toNiels⟩

theorem _root_.Verif.Spec.Rep.toANiels {e : Ext F} : Rep e P → RepANiels e.toANiels P := fun ⟨_, h, h'⟩ => ⟨_, h.toANiels, h'.toANiels⟩

theorem _root_.Verif.Spec.Rep.double {e : Ext F} (h : Rep e P) : Rep e.double (P + P) := h.toProj.double.toExt

theorem _root_.Verif.Spec.Rep.add {e f : Ext F} (h : Rep e P) (h' : Rep f Q) : Rep (e.add f) (P + Q) := (h.addN h'.toNiels).toExt

theorem _root_.Verif.Spec.Rep.neg {e : Ext F} : Rep e P → Rep e.neg (-P) :=
  fun ⟨e', h, h'⟩ => ⟨e'.neg, ⟨Rel.neg (tl h.1), h.2.1, h.2.2.1, Rel.neg (tl h.2.2.2)⟩, h'.neg⟩

theorem RepProj.iterate {e : Proj F} (h : RepProj e P) (k : ℕ) : RepProj ((fun s => s.double.toProj)^[k] e) (2 ^ k • P) := by
  induction k with
  | zero => simpa using h
  | succ k ih =>
    rw [Function.iterate_succ_apply', pow_succ, mul_two, add_nsmul]
    exact ih.double.toProj

theorem _root_.Verif.Spec.Rep.mulByPow2 {e : Ext F} (h : Rep e P) {k : ℕ} (hk : 0 < k) : Rep (e.mulByPow2 k) (2 ^ k • P) := by
  obtain ⟨k, rfl⟩ := Nat.exists_eq_succ_of_ne_zero hk.ne'
  rw [pow_succ, mul_two, add_nsmul]
  exact (h.toProj.iterate k).double.toExt

theorem rep_id : Rep (Ext.id : Ext F) 0 := ⟨_, rExt_id, denExt_id⟩

theorem rep_base : Rep (Ext.base : Ext F) edBase := ⟨_, rExt_base, denExt_base⟩

theorem repProj_id : RepProj (Proj.id : Proj F) 0 := ⟨_, ⟨Rel.zero, Rel.one, Rel.one⟩, denProj_id⟩

theorem repANiels_id : RepANiels (ANiels.id : ANiels F) 0 := ⟨_, ⟨tl Rel.one, tl Rel.one, tl Rel.zero⟩, denANiels_id⟩

theorem _root_.Verif.Spec.Rep.eq_iff {e f : Ext F} : Rep e P → Rep f Q → (e.eq f = true ↔ P = Q) :=
  fun ⟨_, h, h'⟩ ⟨_, g, g'⟩ => by rw [h.eq g, h'.eq_iff g']

theorem _root_.Verif.Spec.Rep.isId_iff {e : Ext F} (h : Rep e P) : e.isId = true ↔ P = 0 := h.eq_iff rep_id

theorem _root_.Verif.Spec.Rep.isSmallOrder {e : Ext F} (h : Rep e P) : e.isSmallOrder = EdCurve.smallOrder P := by
  rw [Bool.eq_iff_iff, Ext.isSmallOrder, (h.mulByPow2 (by norm_num : 0 < 3)).isId_iff, EdCurve.smallOrder, decide_eq_true_iff]
  norm_num

theorem _root_.Verif.Spec.Rep.compress {e : Ext F} : Rep e P → e.compress = edCompress P :=
  fun ⟨_, h, h'⟩ => by rw [h.compress, h'.compress]

theorem decompress_rep (b : Bytes 32) :
    (∃ e P, (Ext.decompress b : Option (Ext F)) = some e ∧ edDecompress b = some P ∧ Rep e P) ∨
    ((Ext.decompress b : Option (Ext F)) = none ∧ edDecompress b = none) := by
  rcases decompress_rel (F := F) b with ⟨e, e', h1, h2, h3⟩ | ⟨h1, h2⟩
  · rcases decompress_spec b with ⟨e'', P, g1, g2, g3⟩ | ⟨g1, -⟩
    · rw [h2, Option.some_inj] at g1
      subst g1
      exact .inl ⟨e, P, h1, g2, e', h3, g3⟩
    · rw [h2] at g1
      exact absurd g1 (by simp)
  · rcases decompress_spec b with ⟨e'', P, g1, -, -⟩ | ⟨-, g2⟩
    · rw [h2] at g1
      exact absurd g1 (by simp)
    · exact .inr ⟨h1, g2⟩

/-- With exact field elements the representation is the coordinates themselves. -/
theorem rep_exact {e : Ext EdF} : Rep e P ↔ DenExt e P := by
  constructor
  · rintro ⟨e', ⟨h1, h2, h3, h4⟩, h⟩
    have : e = e' := by
      cases e
      cases e'
      simp only [Ext.mk.injEq]
      exact ⟨h1, h2, h3, h4⟩
    rw [this]
    exact h
  · exact fun h => ⟨e, ⟨rfl, rfl, rfl, rfl⟩, h⟩

end Verif.EdProj
