import Verif.Model.ArkProj
import Mathlib.Algebra.Field.Basic
import Mathlib.Algebra.GroupWithZero.Units.Lemmas

/-!
# Maps of fields commute with the formulas in coordinates (for C129)
-/

namespace Verif

variable {L F : Type}

/-- Both coordinates and the flag. -/
def AffPoint.map (φ : L → F) (A : AffPoint L) : AffPoint F := ⟨φ A.x, φ A.y, A.infinity⟩

/-- All three coordinates. -/
def JacPoint.map (φ : L → F) (P : JacPoint L) : JacPoint F := ⟨φ P.x, φ P.y, φ P.z⟩

set_option linter.unusedSectionVars false

variable [Field L] [DecidableEq L] [Field F] [DecidableEq F] (φ : L →+* F)

theorem JacPoint.map_zero : JacPoint.map φ (.zero : JacPoint L) = .zero := by
  simp [JacPoint.map, JacPoint.zero]

theorem JacPoint.map_isZero (P : JacPoint L) : (P.map φ).isZero = P.isZero := by
  simp [JacPoint.map, JacPoint.isZero]

theorem phi_eq_iff {x y : L} : φ x = φ y ↔ x = y := φ.injective.eq_iff

theorem phi_two : φ 2 = 2 := by rw [← one_add_one_eq_two, map_add, map_one, one_add_one_eq_two]

theorem JacPoint.map_double (P : JacPoint L) : P.double.map φ = (P.map φ).double := by
  unfold JacPoint.double
  rw [JacPoint.map_isZero]
  by_cases h : P.isZero = true
  · rw [if_pos h, if_pos h]
  · rw [if_neg h, if_neg h]
    simp [JacPoint.map, phi_two]

theorem JacPoint.map_addMixed (P : JacPoint L) (A : AffPoint L) : (P.addMixed A).map φ = (P.map φ).addMixed (A.map φ) := by
  unfold JacPoint.addMixed
  rw [JacPoint.map_isZero, show (A.map φ).infinity = A.infinity from rfl]
  by_cases h : A.infinity = true
  · rw [if_pos h, if_pos h]
  rw [if_neg h, if_neg h]
  by_cases h1 : P.isZero = true
  · rw [if_pos h1, if_pos h1]
    simp [JacPoint.map, AffPoint.map]
  rw [if_neg h1, if_neg h1]
  have e : (P.x = A.x * (P.z * P.z) ∧ P.y = A.y * P.z * (P.z * P.z)) ↔ ((P.map φ).x = (A.map φ).x * ((P.map φ).z * (P.map φ).z) ∧
      (P.map φ).y = (A.map φ).y * (P.map φ).z * ((P.map φ).z * (P.map φ).z)) := by
    simp only [JacPoint.map, AffPoint.map, ← map_mul, phi_eq_iff]
  by_cases h2 : P.x = A.x * (P.z * P.z) ∧ P.y = A.y * P.z * (P.z * P.z)
  · simp only [if_pos h2, if_pos (e.1 h2), JacPoint.map_double]
  · simp only [if_neg h2, if_neg fun h => h2 (e.2 h)]
    simp [JacPoint.map, AffPoint.map, phi_two]

theorem JacPoint.map_add (P Q : JacPoint L) : (P.add Q).map φ = (P.map φ).add (Q.map φ) := by
  unfold JacPoint.add
  rw [JacPoint.map_isZero, JacPoint.map_isZero]
  by_cases h : P.isZero = true
  · rw [if_pos h, if_pos h]
  rw [if_neg h, if_neg h]
  by_cases h1 : Q.isZero = true
  · rw [if_pos h1, if_pos h1]
  rw [if_neg h1, if_neg h1]
  have e : (P.x * (Q.z * Q.z) = Q.x * (P.z * P.z) ∧ P.y * Q.z * (Q.z * Q.z) = Q.y * P.z * (P.z * P.z)) ↔
      ((P.map φ).x * ((Q.map φ).z * (Q.map φ).z) = (Q.map φ).x * ((P.map φ).z * (P.map φ).z) ∧
      (P.map φ).y * (Q.map φ).z * ((Q.map φ).z * (Q.map φ).z) = (Q.map φ).y * (P.map φ).z * ((P.map φ).z * (P.map φ).z)) := by
    simp only [JacPoint.map, ← map_mul, phi_eq_iff]
  by_cases h2 : P.x * (Q.z * Q.z) = Q.x * (P.z * P.z) ∧ P.y * Q.z * (Q.z * Q.z) = Q.y * P.z * (P.z * P.z)
  · simp only [if_pos h2, if_pos (e.1 h2), JacPoint.map_double]
  · simp only [if_neg h2, if_neg fun h => h2 (e.2 h)]
    simp [JacPoint.map, phi_two]

theorem JacPoint.map_neg (P : JacPoint L) : P.neg.map φ = (P.map φ).neg := by
  unfold JacPoint.neg
  rw [JacPoint.map_isZero]
  by_cases h : P.isZero = true
  · rw [if_pos h, if_pos h]
  · rw [if_neg h, if_neg h]
    simp [JacPoint.map]

theorem JacPoint.map_sub (P Q : JacPoint L) : (P.sub Q).map φ = (P.map φ).sub (Q.map φ) := by
  rw [JacPoint.sub, JacPoint.map_add, JacPoint.map_neg]
  rfl

theorem JacPoint.map_eq (P Q : JacPoint L) : (P.map φ).eq (Q.map φ) = P.eq Q := by
  unfold JacPoint.eq
  rw [JacPoint.map_isZero, JacPoint.map_isZero]
  simp only [JacPoint.map, ← map_mul, phi_eq_iff]

theorem AffPoint.map_zero : AffPoint.map φ (.zero : AffPoint L) = .zero := by
  simp [AffPoint.map, AffPoint.zero]

theorem AffPoint.map_inj {A B : AffPoint L} : A.map φ = B.map φ ↔ A = B := by
  cases A
  cases B
  simp [AffPoint.map, phi_eq_iff]

theorem AffPoint.map_neg (A : AffPoint L) : A.neg.map φ = (A.map φ).neg := by
  cases h : A.infinity <;> simp [AffPoint.neg, AffPoint.map, h]

theorem AffPoint.map_intoProjective (A : AffPoint L) : A.intoProjective.map φ = (A.map φ).intoProjective := by
  cases h : A.infinity <;> simp [AffPoint.intoProjective, AffPoint.map, JacPoint.map, JacPoint.zero, h]

theorem JacPoint.map_intoAffine (P : JacPoint L) : P.intoAffine.map φ = (P.map φ).intoAffine := by
  unfold JacPoint.intoAffine
  rw [JacPoint.map_isZero]
  by_cases h : P.isZero = true
  · rw [if_pos h, if_pos h, AffPoint.map_zero]
  rw [if_neg h, if_neg h]
  have e : P.z = 1 ↔ (P.map φ).z = 1 := by
    rw [← map_one φ]
    exact (phi_eq_iff φ).symm
  by_cases h1 : P.z = 1
  · rw [if_pos h1, if_pos (e.1 h1)]
    rfl
  · rw [if_neg h1, if_neg fun h => h1 (e.2 h)]
    simp [AffPoint.map, JacPoint.map]

theorem AffPoint.map_mulBits (A : AffPoint L) (bits : List Bool) : (A.mulBits bits).map φ = (A.map φ).mulBits bits := by
  unfold AffPoint.mulBits
  suffices h : ∀ R : JacPoint L, (bits.foldl (fun res b => if b then res.double.addMixed A else res.double) R).map φ =
      bits.foldl (fun res b => if b then res.double.addMixed (A.map φ) else res.double) (R.map φ) by
    rw [h, JacPoint.map_zero]
  intro R
  induction bits generalizing R with
  | nil => rfl
  | cons b bits ih =>
    rw [List.foldl_cons, List.foldl_cons, ih]
    cases b
    · simp only [Bool.false_eq_true, if_false, JacPoint.map_double]
    · simp only [if_true, JacPoint.map_addMixed, JacPoint.map_double]

theorem JacPoint.map_mulBits (P : JacPoint L) (bits : List Bool) : (P.mulBits bits).map φ = (P.map φ).mulBits bits := by
  unfold JacPoint.mulBits
  generalize bits.dropWhile (!·) = bits
  suffices h : ∀ R : JacPoint L, (bits.foldl (fun res b => if b then res.double.add P else res.double) R).map φ =
      bits.foldl (fun res b => if b then res.double.add (P.map φ) else res.double) (R.map φ) by
    rw [h, JacPoint.map_zero]
  intro R
  induction bits generalizing R with
  | nil => rfl
  | cons b bits ih =>
    rw [List.foldl_cons, List.foldl_cons, ih]
    cases b
    · simp only [Bool.false_eq_true, if_false, JacPoint.map_double]
    · simp only [if_true, JacPoint.map_add, JacPoint.map_double]

/-! ### many points at once -/

theorem map_runningProducts (l : List L) :
    runningProducts (l.map φ) = (φ (runningProducts l).1, (runningProducts l).2.map φ) := by
  unfold runningProducts
  suffices h : ∀ s : L × List L, (l.map φ).foldl (fun (tmp, prod) f => (tmp * f, prod ++ [tmp * f])) (φ s.1, s.2.map φ) =
      (φ (l.foldl (fun (tmp, prod) f => (tmp * f, prod ++ [tmp * f])) s).1,
        (l.foldl (fun (tmp, prod) f => (tmp * f, prod ++ [tmp * f])) s).2.map φ) by
    have := h (1, [])
    simpa using this
  intro s
  induction l generalizing s with
  | nil => rfl
  | cons a l ih =>
    simp only [List.map_cons, List.foldl_cons]
    rw [← ih]
    simp

theorem map_backwardPass (t : L) (l : List (L × L)) :
    backwardPass (φ t) (l.map fun p => (φ p.1, φ p.2)) = (backwardPass t l).map φ := by
  unfold backwardPass
  suffices h : ∀ s : L × List L, ((l.map fun p => (φ p.1, φ p.2)).foldl (fun (tmp, out) (f, s) => (tmp * f, out ++ [tmp * s]))
      (φ s.1, s.2.map φ)).2 = (l.foldl (fun (tmp, out) (f, s) => (tmp * f, out ++ [tmp * s])) s).2.map φ by
    exact h (t, [])
  intro s
  induction l generalizing s with
  | nil => rfl
  | cons a l ih =>
    simp only [List.map_cons, List.foldl_cons]
    rw [← ih]
    simp

theorem map_writeBack (l is : List L) : writeBack (l.map φ) (is.map φ) = (writeBack l is).map φ := by
  induction l generalizing is with
  | nil => simp [writeBack]
  | cons a l ih =>
    cases is with
    | nil => simp [writeBack]
    | cons i is =>
      simp only [List.map_cons, writeBack, map_eq_zero]
      by_cases h : a = 0
      · rw [if_pos h, if_pos h, List.map_cons, ← ih, List.map_cons]
      · rw [if_neg h, if_neg h, List.map_cons, ← ih]

theorem map_batchInversion (l : List L) : batchInversion (l.map φ) = (batchInversion l).map φ := by
  have e : (l.map φ).filter (· ≠ 0) = (l.filter (· ≠ 0)).map φ := by
    rw [List.filter_map]
    congr 1
    apply List.filter_congr
    simp
  unfold batchInversion
  simp only [e, map_runningProducts]
  rw [← map_writeBack, List.map_reverse, ← map_backwardPass, map_inv₀, ← List.map_reverse]
  congr 3
  rw [← List.map_reverse, ← List.map_drop, show [(1 : F)] = [(1 : L)].map φ by simp, ← List.map_append, List.zip_map]
  rfl

theorem map_batchNormalization (l : List (JacPoint L)) :
    batchNormalization (l.map (·.map φ)) = (batchNormalization l).map (·.map φ) := by
  unfold batchNormalization
  have e : (l.map (JacPoint.map φ)).map (·.z) = (l.map (·.z)).map φ := by simp [JacPoint.map]
  rw [e, map_batchInversion, List.zip_map, List.map_map, List.map_map]
  apply List.map_congr_left
  rintro ⟨g, z⟩ -
  simp only [Function.comp, Prod.map, JacPoint.map_isZero]
  have e : (P : JacPoint L) → (P.z = 1 ↔ (P.map φ).z = 1) := fun P => by
    rw [← map_one φ]
    exact (phi_eq_iff φ).symm
  by_cases h : g.isZero = true ∨ g.z = 1
  · rw [if_pos h, if_pos (h.imp id (e g).1), JacPoint.map_intoAffine]
  · rw [if_neg h, if_neg fun h' => h (h'.imp id (e g).2), JacPoint.map_intoAffine]
    simp [JacPoint.map]

theorem map_modify (l : List (JacPoint L)) (i : ℕ) (A : AffPoint L) :
    (l.modify i (·.addMixed A)).map (·.map φ) = (l.map (·.map φ)).modify i (·.addMixed (A.map φ)) := by
  induction l generalizing i with
  | nil => simp
  | cons a l ih =>
    cases i with
    | zero => simp [JacPoint.map_addMixed]
    | succ i => simp [ih]

/-- The accumulator of a window, mapped. -/
def mapAcc (s : JacPoint L × List (JacPoint L)) : JacPoint F × List (JacPoint F) := (s.1.map φ, s.2.map (·.map φ))

theorem map_bucketStep (c w : ℕ) (s : JacPoint L × List (JacPoint L)) (p : ℕ × AffPoint L) :
    bucketStep c w (mapAcc φ s) (p.1, p.2.map φ) = mapAcc φ (bucketStep c w s p) := by
  unfold bucketStep
  by_cases h : p.1 = 1
  · simp only [if_pos h]
    by_cases h1 : w = 0
    · simp only [if_pos h1, mapAcc, JacPoint.map_addMixed]
    · simp only [if_neg h1]
  · simp only [if_neg h]
    by_cases h1 : p.1 / 2 ^ w % 2 ^ 64 % 2 ^ c ≠ 0
    · simp only [if_pos h1, mapAcc, map_modify]
    · simp only [if_neg h1]

theorem map_windowBuckets (c w : ℕ) (pairs : List (ℕ × AffPoint L)) :
    windowBuckets c w (pairs.map fun p => (p.1, p.2.map φ)) = mapAcc φ (windowBuckets c w pairs) := by
  unfold windowBuckets
  have e : mapAcc φ ((.zero : JacPoint L), List.replicate (2 ^ c - 1) .zero) = (.zero, List.replicate (2 ^ c - 1) .zero) := by
    simp [mapAcc, JacPoint.map_zero]
  rw [← e]
  generalize ((.zero : JacPoint L), List.replicate (2 ^ c - 1) (.zero : JacPoint L)) = s
  induction pairs generalizing s with
  | nil => rfl
  | cons p pairs ih => rw [List.map_cons, List.foldl_cons, List.foldl_cons, map_bucketStep, ih]

theorem map_windowSum (c w : ℕ) (pairs : List (ℕ × AffPoint L)) :
    windowSum c w (pairs.map fun p => (p.1, p.2.map φ)) = (windowSum c w pairs).map φ := by
  unfold windowSum
  rw [map_windowBuckets]
  generalize windowBuckets c w pairs = s
  simp only [mapAcc]
  rw [map_batchNormalization, ← List.map_reverse]
  generalize (batchNormalization s.2).reverse = l
  suffices h : ∀ t : JacPoint L × JacPoint L, ((l.map (·.map φ)).foldl (fun (running, res) b =>
      let running := running.addMixed b
      (running, res.add running)) (t.1.map φ, t.2.map φ)).2 = (l.foldl (fun (running, res) b =>
      let running := running.addMixed b
      (running, res.add running)) t).2.map φ by
    rw [← JacPoint.map_zero φ]
    exact h (.zero, s.1)
  intro t
  induction l generalizing t with
  | nil => rfl
  | cons a l ih =>
    simp only [List.map_cons, List.foldl_cons]
    rw [← ih]
    simp only [JacPoint.map_addMixed, JacPoint.map_add]

theorem map_doubles (c : ℕ) (t : JacPoint L) :
    ((List.range c).foldl (fun t _ => t.double) t).map φ = (List.range c).foldl (fun t _ => t.double) (t.map φ) := by
  generalize List.range c = l
  induction l generalizing t with
  | nil => rfl
  | cons a l ih => rw [List.foldl_cons, List.foldl_cons, ih, JacPoint.map_double]

theorem map_multiScalarMul {ε : Type} (bits : ℕ) (bases : List (AffPoint L)) (scalars : List ℕ) :
    multiScalarMul (ε := ε) bits (bases.map (·.map φ)) scalars = (multiScalarMul bits bases scalars).bind fun J => .ok (J.map φ) := by
  unfold multiScalarMul
  rw [List.length_map]
  generalize windowBits (min bases.length scalars.length) = c
  have e : (scalars.zip (bases.map (·.map φ))).filter (fun (s, _) => s ≠ 0) =
      ((scalars.zip bases).filter fun (s, _) => s ≠ 0).map fun p => (p.1, p.2.map φ) := by
    rw [List.zip_map_right, List.filter_map]
    rfl
  simp only [e, map_windowSum]
  generalize (scalars.zip bases).filter (fun (s, _) => s ≠ 0) = pairs
  cases h : (List.range ((bits + c - 1) / c)).map (c * ·) with
  | nil => rfl
  | cons w ws =>
    simp only [List.map_cons, Res.bind]
    congr 1
    rw [JacPoint.map_add]
    congr 1
    rw [← List.map_reverse, ← List.map_reverse]
    generalize ws.reverse = ws
    suffices h : ∀ t : JacPoint L, (ws.map fun w => (windowSum c w pairs).map φ).foldl
        (fun total s => (List.range c).foldl (fun t _ => t.double) (total.add s)) (t.map φ) =
        ((ws.map fun w => windowSum c w pairs).foldl (fun total s => (List.range c).foldl (fun t _ => t.double) (total.add s)) t).map φ by
      rw [← JacPoint.map_zero φ]
      exact h .zero
    intro t
    induction ws generalizing t with
    | nil => rfl
    | cons w ws ih =>
      simp only [List.map_cons, List.foldl_cons]
      rw [← ih, map_doubles, JacPoint.map_add]

end Verif
