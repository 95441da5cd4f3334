import Verif.Lemmas.ArkProj

/-!
# Lemmas on batch normalization and multi-scalar multiplication
-/

namespace Verif

open WeierstrassCurve

set_option linter.unusedSectionVars false

variable {F : Type} [Field F] [DecidableEq F]

/-! ### batch inversion -/

theorem runningProducts_concat (l : List F) (a : F) :
    runningProducts (l ++ [a]) = ((runningProducts l).1 * a, (runningProducts l).2 ++ [(runningProducts l).1 * a]) := by
  simp [runningProducts, List.foldl_append]

theorem runningProducts_fst (l : List F) : (runningProducts l).1 = l.prod := by
  induction l using List.reverseRecOn with
  | nil => rfl
  | append_singleton l a ih => rw [runningProducts_concat, List.prod_append, ih]; simp

theorem backwardPass_cons (tmp f s : F) (l : List (F × F)) :
    backwardPass tmp ((f, s) :: l) = tmp * s :: backwardPass (tmp * f) l := by
  have key : ∀ (l : List (F × F)) (t : F) (out : List F),
      (l.foldl (fun (tmp, out) (f, s) => (tmp * f, out ++ [tmp * s])) (t, out)).2 =
        out ++ (l.foldl (fun (tmp, out) (f, s) => (tmp * f, out ++ [tmp * s])) (t, ([] : List F))).2 := by
    intro l
    induction l with
    | nil => intro t out; simp
    | cons p l ih =>
      intro t out
      simp only [List.foldl_cons]
      rw [ih _ (out ++ _), ih _ ([] ++ _)]
      simp
  simp only [backwardPass, List.foldl_cons]
  rw [key]
  rfl

theorem prods_head (l : List F) : (runningProducts l).2.reverse ++ [1] =
    (runningProducts l).1 :: ((runningProducts l).2.reverse.drop 1 ++ if l = [] then [] else [1]) := by
  induction l using List.reverseRecOn with
  | nil => rfl
  | append_singleton l a ih => simp [runningProducts_concat]

theorem backwardPass_spec (l : List F) (h : ∀ a ∈ l, a ≠ 0) :
    backwardPass (runningProducts l).1⁻¹ (l.reverse.zip ((runningProducts l).2.reverse.drop 1 ++ [1])) =
      (l.map (·⁻¹)).reverse := by
  induction l using List.reverseRecOn with
  | nil => rfl
  | append_singleton l a ih =>
    have hl : ∀ x ∈ l, x ≠ 0 := fun x hx => h x (List.mem_append_left _ hx)
    have ha : a ≠ 0 := h a (by simp)
    have hp : (runningProducts l).1 ≠ 0 := by
      rw [runningProducts_fst]
      exact List.prod_ne_zero (fun h0 => hl 0 h0 rfl)
    rw [runningProducts_concat]
    simp only [List.reverse_append, List.reverse_cons, List.reverse_nil, List.nil_append, List.cons_append, List.drop_succ_cons,
      List.drop_zero, List.map_append, List.map_cons, List.map_nil]
    rw [prods_head, List.zip_cons_cons, backwardPass_cons]
    have e1 : ((runningProducts l).1 * a)⁻¹ * (runningProducts l).1 = a⁻¹ := by field_simp
    have e2 : ((runningProducts l).1 * a)⁻¹ * a = (runningProducts l).1⁻¹ := by field_simp
    rw [e1, e2]
    congr 1
    rw [← ih hl]
    rcases eq_or_ne l [] with rfl | hne
    · rfl
    · rw [if_neg hne]

theorem writeBack_spec (l : List F) : writeBack l ((l.filter (· ≠ 0)).map (·⁻¹)) = l.map (·⁻¹) := by
  induction l with
  | nil => rfl
  | cons a l ih =>
    by_cases ha : a = 0
    · subst ha
      rw [List.filter_cons_of_neg (by simp), List.map_cons, inv_zero]
      generalize hl : (l.filter (· ≠ 0)).map (·⁻¹) = m at ih
      cases m with
      | nil =>
        rw [writeBack, ← ih]
        cases l <;> rfl
      | cons i is => rw [writeBack, if_pos rfl, ih]
    · rw [List.filter_cons_of_pos (by simpa using ha), List.map_cons, writeBack, if_neg ha, ih, List.map_cons]

/-- One inversion gives all inverses. -/
theorem batchInversion_eq (l : List F) : batchInversion l = l.map (·⁻¹) := by
  rw [batchInversion]
  simp only
  rw [backwardPass_spec _ (fun a ha => by simpa using (List.mem_filter.1 ha).2), List.reverse_reverse, writeBack_spec]

theorem batchNormalization_eq (l : List (JacPoint F)) : batchNormalization l = l.map (·.intoAffine) := by
  rw [batchNormalization, batchInversion_eq, List.map_map]
  induction l with
  | nil => rfl
  | cons g l ih =>
    rw [List.map_cons, List.zip_cons_cons, List.map_cons, ih, List.map_cons]
    congr 1
    simp only [Function.comp]
    split
    · rfl
    · rename_i h
      rw [not_or, isZero_iff] at h
      rw [JacPoint.intoAffine, if_neg (by rw [isZero_iff]; exact one_ne_zero), if_pos rfl, JacPoint.intoAffine,
        if_neg (by rw [isZero_iff]; exact h.1), if_neg h.2]

/-! ### multi-scalar multiplication -/

/-- The sum `1 Q₀ + 2 Q₁ + …`. -/
def rankSum {G : Type} [AddCommGroup G] : List G → G
  | [] => 0
  | Q :: l => rankSum l + (Q :: l).sum

theorem rankSum_modify {G : Type} [AddCommGroup G] (l : List G) (k : ℕ) (hk : k < l.length) (R : G) :
    rankSum (l.modify k (· + R)) = rankSum l + (k + 1) • R ∧ (l.modify k (· + R)).sum = l.sum + R := by
  induction l generalizing k with
  | nil => exact absurd hk (by simp)
  | cons Q l ih =>
    cases k with
    | zero =>
      rw [List.modify_zero_cons]
      simp only [rankSum, List.sum_cons, zero_add, one_nsmul]
      exact ⟨by abel, by abel⟩
    | succ k =>
      rw [List.modify_succ_cons]
      obtain ⟨h1, h2⟩ := ih k (by simpa using hk)
      simp only [rankSum, List.sum_cons, h1, h2]
      refine ⟨?_, by abel⟩
      rw [succ_nsmul R (k + 1)]
      abel

theorem rankSum_replicate {G : Type} [AddCommGroup G] (n : ℕ) : rankSum (List.replicate n (0 : G)) = 0 := by
  induction n with
  | zero => rfl
  | succ n ih => rw [List.replicate_succ, rankSum, ih, ← List.replicate_succ, List.sum_replicate, smul_zero, add_zero]

theorem forall₂_modify {α β : Type} {R : α → β → Prop} {f : α → α} {g : β → β} (hfg : ∀ a b, R a b → R (f a) (g b)) {l : List α}
    {m : List β} (h : List.Forall₂ R l m) (k : ℕ) : List.Forall₂ R (l.modify k f) (m.modify k g) := by
  induction h generalizing k with
  | nil => cases k <;> exact .nil
  | cons h hl ih =>
    cases k with
    | zero => exact .cons (hfg _ _ h) hl
    | succ k => exact .cons h (ih k)

/-- The combination that the pairs denote, with digits `d s`. -/
def digitSum {b : F} (d : ℕ → ℕ) (l : List (ℕ × (swCurve 0 b).Point)) : (swCurve 0 b).Point := (l.map fun p => d p.1 • p.2).sum

/-- Scalars and bases that denote scalars and points. -/
abbrev PairRep {b : F} (p : ℕ × AffPoint F) (q : ℕ × (swCurve 0 b).Point) : Prop := p.1 = q.1 ∧ Spec.DenotesAff p.2 q.2

theorem bucketStep_spec (h2 : (2 : F) ≠ 0) {b : F} {c w : ℕ} (hc : 0 < c) (hc' : c ≤ 64) {acc : JacPoint F × List (JacPoint F)}
    {p : ℕ × AffPoint F} {q : ℕ × (swCurve 0 b).Point} (hpq : PairRep p q) {R : (swCurve 0 b).Point}
    {T : List (swCurve 0 b).Point} (hR : Spec.Denotes acc.1 R) (hT : List.Forall₂ Spec.Denotes acc.2 T)
    (hl : acc.2.length = 2 ^ c - 1) :
    ∃ (R' : (swCurve 0 b).Point) (T' : List (swCurve 0 b).Point), Spec.Denotes (bucketStep c w acc p).1 R' ∧
      List.Forall₂ Spec.Denotes (bucketStep c w acc p).2 T' ∧ (bucketStep c w acc p).2.length = 2 ^ c - 1 ∧
      R' + rankSum T' = R + rankSum T + (q.1 / 2 ^ w % 2 ^ c) • q.2 := by
  obtain ⟨s, A⟩ := p
  obtain ⟨s', Q⟩ := q
  obtain ⟨hs', hA⟩ := hpq
  have hs' : s = s' := hs'
  subst hs'
  simp only at hA
  have hmod : s / 2 ^ w % 2 ^ 64 % 2 ^ c = s / 2 ^ w % 2 ^ c := Nat.mod_mod_of_dvd _ (pow_dvd_pow 2 hc')
  simp only [bucketStep, hmod]
  by_cases hs : s = 1
  · subst hs
    rw [if_pos rfl]
    by_cases hw : w = 0
    · subst hw
      rw [if_pos rfl]
      refine ⟨_, T, denotes_addMixed h2 hR hA, hT, hl, ?_⟩
      have : 1 / 2 ^ 0 % 2 ^ c = 1 := by
        rw [pow_zero, Nat.div_one]
        exact Nat.mod_eq_of_lt (Nat.one_lt_two_pow hc.ne')
      rw [this, one_nsmul]
      abel
    · rw [if_neg hw]
      refine ⟨R, T, hR, hT, hl, ?_⟩
      rw [Nat.div_eq_of_lt (Nat.one_lt_two_pow hw), Nat.zero_mod, zero_nsmul, add_zero]
  · rw [if_neg hs]
    by_cases hd0 : s / 2 ^ w % 2 ^ c = 0
    · rw [if_neg (not_not.2 hd0)]
      exact ⟨R, T, hR, hT, hl, by rw [hd0, zero_nsmul, add_zero]⟩
    · rw [if_pos hd0]
      have hlt : s / 2 ^ w % 2 ^ c < 2 ^ c := Nat.mod_lt _ (by positivity)
      have hk : s / 2 ^ w % 2 ^ c - 1 < T.length := by rw [← hT.length_eq, hl]; omega
      refine ⟨R, _, hR, forall₂_modify (g := (· + Q)) (fun _ _ h => denotes_addMixed h2 h hA) hT (s / 2 ^ w % 2 ^ c - 1),
        by rw [List.length_modify, hl], ?_⟩
      rw [(rankSum_modify T _ hk Q).1, Nat.sub_add_cancel (Nat.one_le_iff_ne_zero.2 hd0)]
      abel

theorem windowBuckets_spec (h2 : (2 : F) ≠ 0) {b : F} {c w : ℕ} (hc : 0 < c) (hc' : c ≤ 64) (pairs : List (ℕ × AffPoint F))
    (pts : List (ℕ × (swCurve 0 b).Point)) (h : List.Forall₂ PairRep pairs pts) :
    ∃ (R : (swCurve 0 b).Point) (T : List (swCurve 0 b).Point), Spec.Denotes (windowBuckets c w pairs).1 R ∧
      List.Forall₂ Spec.Denotes (windowBuckets c w pairs).2 T ∧ R + rankSum T = digitSum (fun s => s / 2 ^ w % 2 ^ c) pts := by
  have key : ∀ (acc : JacPoint F × List (JacPoint F)) (R : (swCurve 0 b).Point) (T : List (swCurve 0 b).Point)
      (_ : Spec.Denotes acc.1 R) (_ : List.Forall₂ Spec.Denotes acc.2 T) (_ : acc.2.length = 2 ^ c - 1),
      ∃ (R' : (swCurve 0 b).Point) (T' : List (swCurve 0 b).Point), Spec.Denotes (pairs.foldl (bucketStep c w) acc).1 R' ∧
        List.Forall₂ Spec.Denotes (pairs.foldl (bucketStep c w) acc).2 T' ∧
        R' + rankSum T' = R + rankSum T + digitSum (fun s => s / 2 ^ w % 2 ^ c) pts := by
    induction h with
    | nil => intro acc R T hR hT _; exact ⟨R, T, hR, hT, by simp [digitSum]⟩
    | @cons p q pairs pts hpq _ ih =>
      intro acc R T hR hT hl
      obtain ⟨R1, T1, hR1, hT1, hl1, e1⟩ := bucketStep_spec (w := w) h2 hc hc' hpq hR hT hl
      obtain ⟨R2, T2, hR2, hT2, e2⟩ := ih _ R1 T1 hR1 hT1 hl1
      refine ⟨R2, T2, hR2, hT2, ?_⟩
      rw [e2, e1]
      simp only [digitSum, List.map_cons, List.sum_cons]
      abel
  obtain ⟨R, T, h1, h3, h4⟩ := key (.zero, List.replicate (2 ^ c - 1) .zero) 0 (List.replicate (2 ^ c - 1) 0)
    denotes_zero (by
      simp only
      generalize 2 ^ c - 1 = m
      induction m with
      | zero => exact .nil
      | succ m ih => exact .cons denotes_zero ih) (by simp)
  exact ⟨R, T, h1, h3, by rw [h4, rankSum_replicate, zero_add, zero_add]⟩

theorem windowSum_spec (h2 : (2 : F) ≠ 0) {b : F} {c w : ℕ} (hc : 0 < c) (hc' : c ≤ 64) (pairs : List (ℕ × AffPoint F))
    (pts : List (ℕ × (swCurve 0 b).Point)) (h : List.Forall₂ PairRep pairs pts) :
    Spec.Denotes (windowSum c w pairs) (digitSum (fun s => s / 2 ^ w % 2 ^ c) pts) := by
  obtain ⟨R, T, h1, h3, h4⟩ := windowBuckets_spec (w := w) h2 hc hc' pairs pts h
  rw [windowSum, ← h4]
  simp only [batchNormalization_eq]
  generalize (windowBuckets c w pairs).1 = res at h1
  generalize (windowBuckets c w pairs).2 = bs at h3
  rw [List.foldl_reverse]
  refine And.right (a := Spec.Denotes ((bs.map (·.intoAffine)).foldr (fun b (x : JacPoint F × JacPoint F) =>
    (x.1.addMixed b, x.2.add (x.1.addMixed b))) (JacPoint.zero, res)).1 T.sum) ?_
  clear h4
  induction h3 with
  | nil => exact ⟨denotes_zero, by simpa [rankSum] using h1⟩
  | @cons g Q bs T hg _ ih =>
    have e1 := denotes_addMixed h2 ih.1 (denotes_intoAffine hg)
    have e2 := denotes_add h2 ih.2 e1
    refine ⟨?_, ?_⟩
    · rw [List.sum_cons, add_comm]
      exact e1
    · rw [rankSum, List.sum_cons, ← add_assoc, add_comm Q]
      exact e2

theorem denotes_doubles {b : F} (c : ℕ) {P : JacPoint F} {Q : (swCurve 0 b).Point} (h : Spec.Denotes P Q) :
    Spec.Denotes ((List.range c).foldl (fun t _ => t.double) P) (2 ^ c • Q) := by
  induction c with
  | zero => simpa using h
  | succ c ih =>
    rw [List.range_succ, List.foldl_append, pow_succ, mul_comm, mul_nsmul', two_nsmul]
    exact denotes_double ih

/-- The sum of the windows, lowest first. -/
def windowsValue {G : Type} [AddCommGroup G] (c : ℕ) : List G → G
  | [] => 0
  | Q :: l => Q + 2 ^ c • windowsValue c l

theorem foldr_windows (h2 : (2 : F) ≠ 0) {b : F} (c : ℕ) {sums : List (JacPoint F)} {pts : List (swCurve 0 b).Point}
    (h : List.Forall₂ Spec.Denotes sums pts) :
    Spec.Denotes (sums.reverse.foldl (fun total s => (List.range c).foldl (fun t _ => t.double) (total.add s)) .zero)
      (2 ^ c • windowsValue c pts) := by
  rw [List.foldl_reverse]
  induction h with
  | nil => rw [windowsValue, smul_zero]; exact denotes_zero
  | cons hg _ ih =>
    rw [windowsValue, add_comm]
    exact denotes_doubles c (denotes_add h2 ih hg)

theorem digitSum_add {b : F} (d e : ℕ → ℕ) (k : ℕ) (l : List (ℕ × (swCurve 0 b).Point)) :
    digitSum d l + k • digitSum e l = digitSum (fun s => d s + k * e s) l := by
  induction l with
  | nil => simp [digitSum]
  | cons p l ih =>
    simp only [digitSum, List.map_cons, List.sum_cons] at ih ⊢
    rw [← ih, add_nsmul, mul_nsmul', smul_add]
    abel

theorem windowsValue_range {b : F} (c : ℕ) (l : List (ℕ × (swCurve 0 b).Point)) (m : ℕ) : ∀ k,
    windowsValue c ((List.range' k m).map fun j => digitSum (fun s => s / 2 ^ (c * j) % 2 ^ c) l) =
      digitSum (fun s => s / 2 ^ (c * k) % 2 ^ (c * m)) l := by
  induction m with
  | zero => intro k; simp [windowsValue, digitSum, Nat.mod_one]
  | succ m ih =>
    intro k
    rw [List.range'_succ, List.map_cons, windowsValue, ih, digitSum_add]
    congr 1
    funext s
    rw [mul_add c m 1, mul_one, add_comm (c * m), pow_add, Nat.mod_mul, mul_add c k 1, mul_one, pow_add, Nat.div_div_eq_div_mul]

theorem forall₂_zip {b : F} {bases : List (AffPoint F)} {pts : List (swCurve 0 b).Point}
    (h : List.Forall₂ Spec.DenotesAff bases pts) (scalars : List ℕ) :
    List.Forall₂ PairRep (scalars.zip bases) (scalars.zip pts) := by
  induction h generalizing scalars with
  | nil => cases scalars <;> exact .nil
  | cons h _ ih =>
    cases scalars with
    | nil => exact .nil
    | cons s scalars => exact .cons ⟨rfl, h⟩ (ih scalars)

theorem forall₂_filter {b : F} {l : List (ℕ × AffPoint F)} {m : List (ℕ × (swCurve 0 b).Point)} (h : List.Forall₂ PairRep l m) :
    List.Forall₂ PairRep (l.filter fun p => p.1 ≠ 0) (m.filter fun p => p.1 ≠ 0) := by
  induction h with
  | nil => exact .nil
  | @cons p q l m hpq _ ih =>
    by_cases h0 : p.1 = 0
    · rw [List.filter_cons_of_neg (by simpa using h0), List.filter_cons_of_neg (by simpa [← hpq.1] using h0)]
      exact ih
    · rw [List.filter_cons_of_pos (by simpa using h0), List.filter_cons_of_pos (by simpa [← hpq.1] using h0)]
      exact .cons hpq ih

theorem digitSum_filter {b : F} (l : List (ℕ × (swCurve 0 b).Point)) :
    digitSum id (l.filter fun p => p.1 ≠ 0) = digitSum id l := by
  induction l with
  | nil => rfl
  | cons p l ih =>
    by_cases h0 : p.1 = 0
    · rw [List.filter_cons_of_neg (by simpa using h0), ih]
      simp [digitSum, h0]
    · rw [List.filter_cons_of_pos (by simpa using h0)]
      simp only [digitSum, List.map_cons, List.sum_cons] at ih ⊢
      rw [ih]

theorem windowBits_pos (n : ℕ) : 0 < windowBits n := by
  rw [windowBits]
  split <;> omega

theorem windowBits_le {n : ℕ} (h : n ≤ 2 ^ 64) : windowBits n ≤ 64 := by
  rw [windowBits]
  split
  · decide
  · have : Nat.clog 2 n ≤ 64 := Nat.clog_le_of_le_pow h
    omega

theorem multiScalarMul_spec {ε : Type} (h2 : (2 : F) ≠ 0) {b : F} {bits : ℕ} (hb : 0 < bits) {bases : List (AffPoint F)}
    {pts : List (swCurve 0 b).Point} (h : List.Forall₂ Spec.DenotesAff bases pts) {scalars : List ℕ}
    (hs : ∀ s ∈ scalars, s < 2 ^ bits) (hn : min bases.length scalars.length ≤ 2 ^ 64) :
    ∃ P, multiScalarMul (ε := ε) bits bases scalars = .ok P ∧
      Spec.Denotes P ((scalars.zip pts).map fun p => p.1 • p.2).sum := by
  have hc := windowBits_pos (min bases.length scalars.length)
  have hc' := windowBits_le hn
  rw [multiScalarMul]
  generalize windowBits (min bases.length scalars.length) = c at hc hc'
  obtain ⟨m, hm⟩ : ∃ m, (bits + c - 1) / c = m + 1 :=
    ⟨(bits + c - 1) / c - 1, (Nat.sub_add_cancel (Nat.div_pos (by omega) hc)).symm⟩
  have hbits : bits ≤ c * (m + 1) := by
    rw [← hm]
    have h1 := Nat.div_add_mod (bits + c - 1) c
    have h3 := Nat.mod_lt (bits + c - 1) hc
    omega
  have hp := forall₂_filter (forall₂_zip h scalars)
  generalize (scalars.zip bases).filter (fun p => p.1 ≠ 0) = pairs at hp
  rw [hm, List.range_eq_range', List.range'_succ, List.map_cons, List.map_cons]
  refine ⟨_, rfl, ?_⟩
  have hw := fun w => windowSum_spec (w := w) h2 hc hc' pairs _ hp
  have hv := windowsValue_range c ((scalars.zip pts).filter fun p => p.1 ≠ 0) (m + 1) 0
  rw [List.range'_succ, List.map_cons, windowsValue] at hv
  have hsum : digitSum (fun s => s / 2 ^ (c * 0) % 2 ^ (c * (m + 1))) ((scalars.zip pts).filter fun p => p.1 ≠ 0) =
      ((scalars.zip pts).map fun p => p.1 • p.2).sum := by
    rw [← show digitSum id (scalars.zip pts) = ((scalars.zip pts).map fun p => p.1 • p.2).sum from rfl, ← digitSum_filter]
    simp only [digitSum]
    congr 1
    refine List.map_congr_left fun p hp => ?_
    have h1 : p.1 ∈ scalars := (List.of_mem_zip (a := p.1) (b := p.2) (List.mem_filter.1 hp).1).1
    rw [mul_zero, pow_zero, Nat.div_one, Nat.mod_eq_of_lt ((hs _ h1).trans_le (Nat.pow_le_pow_right (by decide) hbits))]
    rfl
  rw [← hsum, ← hv]
  refine denotes_add h2 (hw _) (foldr_windows h2 c ?_)
  rw [List.map_map]
  generalize List.range' (0 + 1) m = ks
  induction ks with
  | nil => exact .nil
  | cons k ks ih => exact .cons (hw _) ih

end Verif
