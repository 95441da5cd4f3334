import Verif.Lemmas.EdRel
import Verif.Lemmas.EdDigits

/-!
# Tables and loops of `curve25519-dalek`
-/

namespace Verif.EdProj

open WeierstrassCurve
open Spec (Rep digits)

theorem foldl_rel {α β γ : Type} {R : α → β → Prop} {f : α → γ → α} {g : β → γ → β} (l : List γ)
    (h : ∀ a b, R a b → ∀ c ∈ l, R (f a c) (g b c)) {a : α} {b : β} (hab : R a b) : R (l.foldl f a) (l.foldl g b) := by
  induction l generalizing a b with
  | nil => exact hab
  | cons c l ih => exact ih (fun a b hab c hc => h a b hab c (List.mem_cons_of_mem _ hc)) (h a b hab c (by simp))

theorem foldl_rel₂ {α β γ δ : Type} {R : α → β → Prop} {S : γ → δ → Prop} {f : α → γ → α} {g : β → δ → β} {l : List γ} {l' : List δ}
    (hl : List.Forall₂ S l l') (h : ∀ a b c d, R a b → S c d → R (f a c) (g b d)) {a : α} {b : β} (hab : R a b) :
    R (l.foldl f a) (l'.foldl g b) := by
  induction hl generalizing a b with
  | nil => exact hab
  | cons hcd _ ih => exact ih (h _ _ _ _ hab hcd)

section Group

variable {G : Type} [AddCommGroup G]

theorem foldl_horner (W : ℕ) (c : ℕ → G) (n : ℕ) (g : G) :
    (List.range n).reverse.foldl (fun g i => W • g + c i) g = W ^ n • g + ∑ i ∈ Finset.range n, W ^ i • c i := by
  induction n generalizing g with
  | zero => simp
  | succ n ih =>
    rw [List.range_succ, List.reverse_append, List.reverse_singleton, List.singleton_append, List.foldl_cons, ih, Finset.sum_range_succ,
      nsmul_add, pow_succ, mul_nsmul' ]
    abel

theorem sum_digits (W : ℕ) (l : List ℤ) (n : ℕ) (h : l.length ≤ n) (P : G) :
    ∑ i ∈ Finset.range n, W ^ i • (l.getD i 0 • P) = digits W l • P := by
  rw [digits_eq_sum _ _ n h, Finset.sum_smul]
  refine Finset.sum_congr rfl fun i _ => ?_
  rw [mul_smul, ← natCast_zsmul]
  push_cast
  rfl

theorem sum_columns (W : ℕ) (dig : ℕ → List ℤ) (n : ℕ) (l : List (ℕ × G)) (h : ∀ p ∈ l, (dig p.1).length ≤ n ∧ digits W (dig p.1) = p.1) :
    ∑ i ∈ Finset.range n, W ^ i • (l.map fun p => (dig p.1).getD i 0 • p.2).sum = (l.map fun p => p.1 • p.2).sum := by
  induction l with
  | nil => simp
  | cons p l ih =>
    simp only [List.map_cons, List.sum_cons, nsmul_add, Finset.sum_add_distrib]
    rw [ih fun q hq => h q (List.mem_cons_of_mem _ hq), sum_digits W _ n (h p (by simp)).1, (h p (by simp)).2, natCast_zsmul]

/-- The sum of all entries, each as often as its place says, from `k` on. -/
def wsum : ℕ → List G → G
  | _, [] => 0
  | k, a :: l => k • a + wsum (k + 1) l

theorem wsum_modify (k j : ℕ) (l : List G) (P : G) (h : j < l.length) : wsum k (l.modify j (· + P)) = wsum k l + (k + j) • P := by
  induction l generalizing k j with
  | nil => simp at h
  | cons a l ih =>
    cases j with
    | zero =>
      rw [List.modify_zero_cons, wsum, wsum, nsmul_add, add_zero]
      abel
    | succ j =>
      rw [List.modify_succ_cons, wsum, wsum, ih (k + 1) j (by simpa using h), show k + 1 + j = k + (j + 1) by omega]
      abel

theorem wsum_replicate (k n : ℕ) : wsum k (List.replicate n (0 : G)) = 0 := by
  induction n generalizing k with
  | zero => rfl
  | succ n ih => rw [List.replicate_succ, wsum, ih, smul_zero, add_zero]

theorem wsum_succ (k : ℕ) (l : List G) : wsum (k + 1) l = wsum k l + l.sum := by
  induction l generalizing k with
  | nil => simp [wsum]
  | cons a l ih =>
    rw [wsum, wsum, ih, List.sum_cons, add_nsmul, one_nsmul]
    abel

theorem wsum_append (k : ℕ) (l : List G) (b : G) : wsum k (l ++ [b]) = wsum k l + (k + l.length) • b := by
  induction l generalizing k with
  | nil => simp [wsum]
  | cons a l ih =>
    rw [List.cons_append, wsum, wsum, ih, List.length_cons, show k + 1 + l.length = k + (l.length + 1) by omega]
    abel

theorem foldl_running (l : List G) (s t : G) :
    l.reverse.foldl (fun p e => (p.1 + e, p.2 + (p.1 + e))) (s, t) = (s + l.sum, t + (l.length • s + wsum 1 l)) := by
  induction l with
  | nil => simp [wsum]
  | cons a l ih =>
    rw [List.reverse_cons, List.foldl_append, ih, List.foldl_cons, List.foldl_nil, wsum, wsum_succ 1, List.length_cons, List.sum_cons,
      add_nsmul, one_nsmul, one_nsmul]
    refine Prod.ext ?_ ?_
    · show s + l.sum + a = s + (a + l.sum)
      abel
    · show t + (l.length • s + wsum 1 l) + (s + l.sum + a) = t + (l.length • s + s + (a + (wsum 1 l + l.sum)))
      abel

end Group

variable {F : Type} [Add F] [Sub F] [Neg F] [Mul F] [Zero F] [One F] [FE F] [Rel F]

/-! ## Tables -/

theorem oddTable_spec {e : Ext F} {P} (h : Rep e P) (i : ℕ) : RepNiels (oddTable e i) ((2 * i + 1) • P) := by
  induction i with
  | zero =>
    simp only [mul_zero, zero_add, one_nsmul]
    exact h.toNiels
  | succ i ih =>
    have : (2 * (i + 1) + 1) • P = P + P + (2 * i + 1) • P := by
      rw [show 2 * (i + 1) + 1 = 2 + (2 * i + 1) by ring, add_nsmul, two_nsmul]
    rw [this]
    exact (h.double.addN ih).toExt.toNiels

theorem oddTableA_spec {e : Ext F} {P} (h : Rep e P) (i : ℕ) : RepANiels (oddTableA e i) ((2 * i + 1) • P) := by
  induction i with
  | zero =>
    simp only [mul_zero, zero_add, one_nsmul]
    exact h.toANiels
  | succ i ih =>
    have : (2 * (i + 1) + 1) • P = P + P + (2 * i + 1) • P := by
      rw [show 2 * (i + 1) + 1 = 2 + (2 * i + 1) by ring, add_nsmul, two_nsmul]
    rw [this]
    exact (h.double.addA ih).toExt.toANiels

theorem tableA_spec {e : Ext F} {P} (h : Rep e P) (i : ℕ) : RepANiels (tableA e i) ((i + 1) • P) := by
  induction i with
  | zero =>
    simp only [zero_add, one_nsmul]
    exact h.toANiels
  | succ i ih =>
    rw [add_nsmul _ (i + 1) 1, one_nsmul, add_comm (_ • P)]
    exact (h.addA ih).toExt.toANiels

theorem selectA_spec {e : Ext F} {P} (h : Rep e P) (d : ℤ) : RepANiels (selectA (tableA e) d) (d • P) := by
  rcases lt_trichotomy d 0 with hd | hd | hd
  · rw [selectA, if_neg hd.ne]
    simp only [if_pos hd]
    have h1 := (tableA_spec h (d.natAbs - 1)).neg
    rw [show d.natAbs - 1 + 1 = d.natAbs by omega, ← natCast_zsmul, ← neg_zsmul, show -((d.natAbs : ℕ) : ℤ) = d by omega] at h1
    exact h1
  · subst hd
    simp only [selectA, if_true, lt_irrefl, if_false, zero_zsmul]
    exact repANiels_id
  · rw [selectA, if_neg hd.ne']
    simp only [if_neg hd.not_gt]
    have h1 := tableA_spec h (d.natAbs - 1)
    rw [show d.natAbs - 1 + 1 = d.natAbs by omega, ← natCast_zsmul, show ((d.natAbs : ℕ) : ℤ) = d by omega] at h1
    exact h1

theorem addDigit_spec {e : Ext F} {P Q} {t : Compl F} (h : Rep e P) (ht : RepCompl t Q) {w : ℕ} {d : ℤ} (hd : NafDigit w d) :
    RepCompl (addDigit (oddTable e) t d) (Q + d • P) := by
  have h1 := oddTable_spec h (d.natAbs / 2)
  rw [← natCast_zsmul] at h1
  unfold addDigit
  rcases hd with rfl | ⟨hodd, -⟩
  · simpa using ht
  · split
    · rename_i h0
      rw [show ((2 * (d.natAbs / 2) + 1 : ℕ) : ℤ) = d by omega] at h1
      exact ht.toExt.addN h1
    · rename_i h0
      rw [if_pos (by omega)]
      rw [show ((2 * (d.natAbs / 2) + 1 : ℕ) : ℤ) = -d by omega] at h1
      have := ht.toExt.subN h1
      rwa [neg_zsmul, sub_neg_eq_add] at this

theorem addDigitA_spec {e : Ext F} {P Q} {t : Compl F} (h : Rep e P) (ht : RepCompl t Q) {w : ℕ} {d : ℤ} (hd : NafDigit w d) :
    RepCompl (addDigitA (oddTableA e) t d) (Q + d • P) := by
  have h1 := oddTableA_spec h (d.natAbs / 2)
  rw [← natCast_zsmul] at h1
  unfold addDigitA
  rcases hd with rfl | ⟨hodd, -⟩
  · simpa using ht
  · split
    · rename_i h0
      rw [show ((2 * (d.natAbs / 2) + 1 : ℕ) : ℤ) = d by omega] at h1
      exact ht.toExt.addA h1
    · rename_i h0
      rw [if_pos (by omega)]
      rw [show ((2 * (d.natAbs / 2) + 1 : ℕ) : ℤ) = -d by omega] at h1
      have := ht.toExt.subA h1
      rwa [neg_zsmul, sub_neg_eq_add] at this

theorem baseRow_spec (i : ℕ) : Rep (baseRow i : Ext F) (256 ^ i • edBase) := by
  induction i with
  | zero =>
    rw [pow_zero, one_nsmul]
    exact rep_base
  | succ i ih =>
    have := ih.mulByPow2 (show 0 < 8 by norm_num)
    rw [← mul_nsmul', show 2 ^ 8 * 256 ^ i = 256 ^ (i + 1) by rw [pow_succ]; ring] at this
    exact this

theorem getD_mem (l : List ℤ) (i : ℕ) : l.getD i 0 ∈ l ∨ l.getD i 0 = 0 := by
  rw [List.getD_eq_getElem?_getD]
  by_cases h : i < l.length
  · rw [List.getElem?_eq_getElem h]
    exact .inl (List.getElem_mem h)
  · rw [List.getElem?_eq_none (by omega)]
    exact .inr rfl

theorem naf_getD {w x : ℕ} (hw : 2 ≤ w) (hx : x < 2 ^ 255) (i : ℕ) : NafDigit w ((naf w x).getD i 0) := by
  rcases getD_mem (naf w x) i with h | h
  · exact (naf_spec hw hx).2.1 _ h
  · exact .inl h

/-! ## Loops -/

theorem foldl_select {a : List ℤ} {p : Ext F} {P : edW.Point} (h : Rep p P) (l : List ℕ) :
    Rep (l.foldl (fun (p : Ext F) i => (p.addA (selectA (tableA (baseRow (i / 2))) (a.getD i 0))).toExt) p)
      (P + (l.map fun i => a.getD i 0 • (256 ^ (i / 2) • edBase)).sum) := by
  induction l generalizing p P with
  | nil => simpa using h
  | cons i l ih =>
    rw [List.foldl_cons, List.map_cons, List.sum_cons, ← add_assoc]
    exact ih (h.addA (selectA_spec (baseRow_spec _) _)).toExt

theorem sum_pairs {G : Type} [AddCommGroup G] (a : ℕ → ℤ) (B : G) (n : ℕ) :
    16 • ((List.range n).map fun j => a (2 * j + 1) • (256 ^ j • B)).sum + ((List.range n).map fun j => a (2 * j) • (256 ^ j • B)).sum =
      ∑ i ∈ Finset.range (2 * n), 16 ^ i • (a i • B) := by
  induction n with
  | zero => simp
  | succ n ih =>
    rw [show 2 * (n + 1) = 2 * n + 1 + 1 by ring, Finset.sum_range_succ, Finset.sum_range_succ, ← ih, List.range_succ]
    simp only [List.map_append, List.map_singleton, List.sum_append, List.sum_singleton, nsmul_add]
    have e1 : (16 : ℕ) ^ (2 * n) = 256 ^ n := by rw [pow_mul]; norm_num
    have e2 : (16 : ℕ) ^ (2 * n + 1) = 16 * 256 ^ n := by rw [pow_succ, e1]; ring
    rw [e1, e2, mul_nsmul', smul_comm (256 ^ n) (a (2 * n)) B, smul_comm (256 ^ n) (a (2 * n + 1)) B]
    abel

theorem mulBase_spec {x : ℕ} (hx : x < 2 ^ 255) : Rep (mulBase x : Ext F) (x • edBase) := by
  obtain ⟨h1, -, h3⟩ := radix16_spec hx
  unfold mulBase
  simp only []
  have hodd : (List.range 64).filter (· % 2 = 1) = (List.range 32).map fun j => 2 * j + 1 := by decide
  have heven : (List.range 64).filter (· % 2 = 0) = (List.range 32).map fun j => 2 * j := by decide
  rw [hodd, heven]
  have := foldl_select (a := radix16 x) ((foldl_select (a := radix16 x) (rep_id (F := F)) ((List.range 32).map fun j => 2 * j + 1)).mulByPow2
    (show 0 < 4 by norm_num)) ((List.range 32).map fun j => 2 * j)
  rw [zero_add, List.map_map, List.map_map] at this
  have e1 : ((fun i => (radix16 x).getD i 0 • (256 ^ (i / 2) • edBase)) ∘ fun j => 2 * j + 1) =
      fun j => (radix16 x).getD (2 * j + 1) 0 • (256 ^ j • edBase) := by
    funext j
    simp only [Function.comp]
    rw [show (2 * j + 1) / 2 = j by omega]
  have e2 : ((fun i => (radix16 x).getD i 0 • (256 ^ (i / 2) • edBase)) ∘ fun j => 2 * j) =
      fun j => (radix16 x).getD (2 * j) 0 • (256 ^ j • edBase) := by
    funext j
    simp only [Function.comp]
    rw [show (2 * j) / 2 = j by omega]
  rw [e1, e2, show 2 ^ 4 = 16 by norm_num, sum_pairs (fun i => (radix16 x).getD i 0) edBase 32, sum_digits 16 _ _ h3.le] at this
  have h16 : digits ((16 : ℕ) : ℤ) (radix16 x) = x := h1
  rw [h16, natCast_zsmul] at this
  exact this

theorem foldl_dropWhile {G : Type} [AddCommGroup G] (c : ℕ → G) (z : ℕ → Bool) (hz : ∀ i, z i = true → c i = 0) (l : List ℕ) :
    (l.dropWhile z).foldl (fun g i => 2 • g + c i) 0 = l.foldl (fun g i => 2 • g + c i) 0 := by
  induction l with
  | nil => rfl
  | cons i l ih =>
    rw [List.dropWhile_cons]
    split
    · rename_i h
      rw [ih, List.foldl_cons, hz i h, nsmul_zero, add_zero]
    · rfl

theorem doubleBase_spec {a b : ℕ} {A : Ext F} {P} (ha : a < 2 ^ 255) (hb : b < 2 ^ 255) (hA : Rep A P) :
    Rep (doubleBase a A b) (a • P + b • edBase) := by
  obtain ⟨a1, -, a3⟩ := naf_spec (show 2 ≤ 5 by norm_num) ha
  obtain ⟨b1, -, b3⟩ := naf_spec (show 2 ≤ 8 by norm_num) hb
  unfold doubleBase
  simp only []
  refine RepProj.toExt ?_
  generalize hz : (fun i => decide ((naf 5 a).getD i 0 = 0 ∧ (naf 8 b).getD i 0 = 0)) = z
  have hc : ∀ i, z i = true → (naf 5 a).getD i 0 • P + (naf 8 b).getD i 0 • edBase = 0 := by
    intro i hi
    rw [← hz] at hi
    obtain ⟨h1, h2⟩ := of_decide_eq_true hi
    rw [h1, h2, zero_zsmul, zero_zsmul, add_zero]
  have hsum : a • P + b • edBase = ((List.range 256).reverse.dropWhile z).foldl
      (fun g i => 2 • g + ((naf 5 a).getD i 0 • P + (naf 8 b).getD i 0 • edBase)) 0 := by
    rw [foldl_dropWhile _ z hc, foldl_horner, nsmul_zero, zero_add]
    simp only [nsmul_add, Finset.sum_add_distrib]
    rw [sum_digits 2 _ _ a3.le, sum_digits 2 _ _ b3.le]
    have e1 : digits ((2 : ℕ) : ℤ) (naf 5 a) = a := a1
    have e2 : digits ((2 : ℕ) : ℤ) (naf 8 b) = b := b1
    rw [e1, e2, natCast_zsmul, natCast_zsmul]
  have hstep : ∀ (l : List ℕ), RepProj (l.foldl (fun (r : Proj F) i =>
      (addDigitA (oddTableA Ext.base) (addDigit (oddTable A) r.double ((naf 5 a).getD i 0)) ((naf 8 b).getD i 0)).toProj) Proj.id)
      (l.foldl (fun g i => 2 • g + ((naf 5 a).getD i 0 • P + (naf 8 b).getD i 0 • edBase)) 0) := by
    intro l
    refine foldl_rel l (fun r g hr i _ => ?_) repProj_id
    rw [← add_assoc, two_nsmul]
    exact (addDigitA_spec rep_base (addDigit_spec hA hr.double (naf_getD (by norm_num) ha i)) (naf_getD (by norm_num) hb i)).toProj
  rw [hsum]
  split
  · rename_i hnil
    have := hstep [0]
    rw [hnil]
    have h0 : z 0 = true := by
      have := List.dropWhile_eq_nil_iff.1 hnil 0 (by simp)
      exact this
    rw [List.foldl_cons, List.foldl_nil, List.foldl_cons, List.foldl_nil, hc 0 h0, nsmul_zero, add_zero] at this
    exact this
  · exact hstep _

/-- Scalars and points of a multi-scalar product, in coordinates and in the group. -/
def DenPair (p : ℕ × Ext F) (q : ℕ × edW.Point) : Prop := p.1 = q.1 ∧ p.1 < 2 ^ 255 ∧ Rep p.2 q.2

theorem straus_spec {l : List (ℕ × Ext F)} {l' : List (ℕ × edW.Point)} (h : List.Forall₂ DenPair l l') :
    Rep (straus l) (l'.map fun p => p.1 • p.2).sum := by
  have hl : ∀ q ∈ l', q.1 < 2 ^ 255 := by
    induction h with
    | nil => simp
    | cons h1 _ ih =>
      intro q hq
      rcases List.mem_cons.1 hq with rfl | hq
      · rw [← h1.1]
        exact h1.2.1
      · exact ih q hq
  have hsum := sum_columns 2 (naf 5) 256 l' fun q hq => by
    obtain ⟨h1, -, h3⟩ := naf_spec (show 2 ≤ 5 by norm_num) (hl q hq)
    exact ⟨h3.le, h1⟩
  rw [← hsum]
  have hf := foldl_horner 2 (fun i => (l'.map fun p => (naf 5 p.1).getD i 0 • p.2).sum) 256 0
  rw [nsmul_zero, zero_add] at hf
  rw [← hf]
  refine RepProj.toExt (foldl_rel _ (fun r g hr i _ => ?_) repProj_id)
  have hd := hr.double
  rw [← two_nsmul] at hd
  refine RepCompl.toProj ?_
  generalize r.double = t at hd
  generalize 2 • g = g' at hd
  clear * - h hd
  induction h generalizing t g' with
  | nil => simpa using hd
  | cons h1 _ ih =>
    rw [List.foldl_cons, List.map_cons, List.sum_cons, ← add_assoc]
    refine ih _ _ ?_
    rw [← h1.1]
    exact addDigit_spec h1.2.2 hd (naf_getD (by norm_num) h1.2.1 i)

theorem forall₂_modify {α β : Type} {R : α → β → Prop} {f : α → α} {g : β → β} (hfg : ∀ a b, R a b → R (f a) (g b)) {l : List α} {l' : List β}
    (h : List.Forall₂ R l l') (j : ℕ) : List.Forall₂ R (l.modify j f) (l'.modify j g) := by
  induction h generalizing j with
  | nil => simp
  | cons h1 h2 ih =>
    cases j with
    | zero => exact .cons (hfg _ _ h1) h2
    | succ j => exact .cons h1 (ih j)

theorem fillBuckets_spec {i n : ℕ} {l : List (List ℤ × Ext F)} {l' : List (List ℤ × edW.Point)}
    (h : List.Forall₂ (fun p q => p.1 = q.1 ∧ (p.1.getD i 0).natAbs ≤ n ∧ Rep p.2 q.2) l l') :
    ∃ Bs : List edW.Point, List.Forall₂ Rep (fillBuckets i n l) Bs ∧ Bs.length = n ∧
      wsum 1 Bs = (l'.map fun q => q.1.getD i 0 • q.2).sum := by
  unfold fillBuckets
  have h0 : List.Forall₂ Rep (List.replicate n (Ext.id : Ext F)) (List.replicate n (0 : edW.Point)) := by
    clear h
    induction n with
    | zero => exact .nil
    | succ n ih => exact .cons rep_id ih
  have gen : ∀ (bs : List (Ext F)) (Bs : List edW.Point), List.Forall₂ Rep bs Bs → Bs.length = n →
      ∃ Bs' : List edW.Point, List.Forall₂ Rep (l.foldl (fun bs p =>
        let d := p.1.getD i 0
        if 0 < d then bs.modify (d.natAbs - 1) fun e => (e.addN p.2.toNiels).toExt
        else if d < 0 then bs.modify (d.natAbs - 1) fun e => (e.subN p.2.toNiels).toExt
        else bs) bs) Bs' ∧ Bs'.length = n ∧ wsum 1 Bs' = wsum 1 Bs + (l'.map fun q => q.1.getD i 0 • q.2).sum := by
    induction h with
    | nil => exact fun bs Bs h1 h2 => ⟨Bs, h1, h2, by simp⟩
    | cons h1 _ ih =>
      rename_i p q l l' _
      obtain ⟨e1, e2, e3⟩ := h1
      intro bs Bs hB hn
      rw [List.foldl_cons, List.map_cons, List.sum_cons]
      rw [e1] at e2
      simp only []
      rw [e1]
      generalize q.1.getD i 0 = d at e2
      rcases lt_trichotomy d 0 with hd | hd | hd
      · rw [if_neg hd.not_gt, if_pos hd]
        obtain ⟨Bs', g1, g2, g3⟩ := ih _ _ (forall₂_modify (g := (· + -q.2)) (fun a b hab => by
          have := (hab.subN e3.toNiels).toExt
          rwa [sub_eq_add_neg] at this) hB (d.natAbs - 1)) (by rw [List.length_modify]; exact hn)
        refine ⟨Bs', g1, g2, ?_⟩
        rw [g3, wsum_modify _ _ _ _ (by omega), show 1 + (d.natAbs - 1) = d.natAbs by omega, neg_nsmul, ← natCast_zsmul, ← neg_zsmul,
          show -((d.natAbs : ℕ) : ℤ) = d by omega, add_assoc]
      · subst hd
        simp only [lt_irrefl, if_false]
        obtain ⟨Bs', g1, g2, g3⟩ := ih _ _ hB hn
        exact ⟨Bs', g1, g2, by rw [g3, zero_zsmul, zero_add]⟩
      · rw [if_pos hd]
        obtain ⟨Bs', g1, g2, g3⟩ := ih _ _ (forall₂_modify (g := (· + q.2)) (fun a b hab => (hab.addN e3.toNiels).toExt) hB
          (d.natAbs - 1)) (by rw [List.length_modify]; exact hn)
        refine ⟨Bs', g1, g2, ?_⟩
        rw [g3, wsum_modify _ _ _ _ (by omega), show 1 + (d.natAbs - 1) = d.natAbs by omega, ← natCast_zsmul,
          show ((d.natAbs : ℕ) : ℤ) = d by omega, add_assoc]
  obtain ⟨Bs', g1, g2, g3⟩ := gen _ _ h0 (by simp)
  exact ⟨Bs', g1, g2, by rw [g3, wsum_replicate, zero_add]⟩

theorem sumBuckets_spec {bs : List (Ext F)} {Bs : List edW.Point} (h : List.Forall₂ Rep bs Bs) : Rep (sumBuckets bs) (wsum 1 Bs) := by
  have hr : List.Forall₂ Rep bs.reverse Bs.reverse := List.forall₂_reverse_iff.2 h
  unfold sumBuckets
  have hB : Bs = Bs.reverse.reverse := (List.reverse_reverse _).symm
  rw [hB]
  generalize bs.reverse = r at hr
  generalize Bs.reverse = R at hr
  cases hr with
  | nil => exact rep_id
  | cons h1 h2 =>
    rename_i b B r R
    have := foldl_rel₂ (R := fun (p : Ext F × Ext F) (q : edW.Point × edW.Point) => Rep p.1 q.1 ∧ Rep p.2 q.2) h2
      (f := fun p e => (p.1.add e, p.2.add (p.1.add e))) (g := fun p e => (p.1 + e, p.2 + (p.1 + e)))
      (fun a b c d hab hcd => ⟨hab.1.add hcd, hab.2.add (hab.1.add hcd)⟩) (a := (b, b)) (b := (B, B)) ⟨h1, h1⟩
    have e := foldl_running R.reverse B B
    rw [List.reverse_reverse] at e
    rw [e] at this
    rw [List.reverse_cons, wsum_append, add_comm (wsum 1 _), add_nsmul, one_nsmul, add_assoc]
    exact this.2

theorem pippenger_spec {l : List (ℕ × Ext F)} {l' : List (ℕ × edW.Point)} (h : List.Forall₂ DenPair l l') :
    Rep (pippenger l) (l'.map fun p => p.1 • p.2).sum := by
  unfold pippenger
  simp only []
  generalize hw : (if l.length < 500 then 6 else if l.length < 800 then 7 else 8) = w
  have hw' : w = 6 ∨ w = 7 ∨ w = 8 := by
    rw [← hw]
    split_ifs <;> simp
  clear hw
  have hl : ∀ q ∈ l', q.1 < 2 ^ 255 := by
    clear * - h
    induction h with
    | nil => simp
    | cons h1 _ ih =>
      intro q hq
      rcases List.mem_cons.1 hq with rfl | hq
      · rw [← h1.1]
        exact h1.2.1
      · exact ih q hq
  generalize hn : ((256 + w - 1) / w + if w = 8 then 1 else 0) = n
  have hn0 : 0 < n := by
    rw [← hn]
    rcases hw' with rfl | rfl | rfl <;> norm_num
  have hsum := sum_columns (2 ^ w) (radix2w w) n l' fun q hq => by
    obtain ⟨h1, -, h3⟩ := radix2w_spec hw' (hl q hq)
    exact ⟨(h3.trans hn).le, by push_cast; exact h1⟩
  have hcol : ∀ i, Rep (sumBuckets (fillBuckets i (2 ^ w / 2) (l.map fun p => (radix2w w p.1, p.2))))
      (l'.map fun p => (radix2w w p.1).getD i 0 • p.2).sum := by
    intro i
    obtain ⟨Bs, g1, -, g3⟩ := fillBuckets_spec (i := i) (n := 2 ^ w / 2) (l := l.map fun p => (radix2w w p.1, p.2))
      (l' := l'.map fun p => (radix2w w p.1, p.2)) (by
        rw [List.forall₂_map_left_iff, List.forall₂_map_right_iff]
        refine h.imp fun p q hpq => ⟨by rw [hpq.1], ?_, hpq.2.2⟩
        show ((radix2w w p.1).getD i 0).natAbs ≤ _
        rcases getD_mem (radix2w w p.1) i with hi | hi
        · exact (radix2w_spec hw' hpq.2.1).2.1 _ hi
        · rw [hi]
          simp)
    rw [List.map_map] at g3
    have := sumBuckets_spec g1
    rw [g3] at this
    exact this
  rw [← hsum]
  have hf := foldl_horner (2 ^ w) (fun i => (l'.map fun p => (radix2w w p.1).getD i 0 • p.2).sum) n 0
  rw [nsmul_zero, zero_add] at hf
  rw [← hf]
  obtain ⟨n, rfl⟩ := Nat.exists_eq_succ_of_ne_zero hn0.ne'
  rw [List.range_succ, List.reverse_append, List.reverse_singleton, List.singleton_append, List.map_cons, List.foldl_cons, nsmul_zero,
    zero_add]
  simp only []
  rw [List.foldl_map]
  refine foldl_rel _ (fun a b hab i _ => ?_) (hcol n)
  exact (hab.mulByPow2 (by omega)).add (hcol i)

end Verif.EdProj
