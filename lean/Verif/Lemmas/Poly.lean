import Verif.Lemmas.Basic
import Verif.Lemmas.Interp

/-! Closed forms of the functions of `Model/Poly.lean`. -/

open Polynomial Finset

set_option linter.unusedSectionVars false

namespace Verif

theorem getD_lt {α : Type} {l : List α} (d : α) {i : ℕ} (h : i < l.length) : l.getD i d = l[i] := by
  simp [List.getD, List.getElem?_eq_getElem h]

theorem addU64_ok {ε : Type} (m : Mode) {a b : ℕ} (h : a + b < 2 ^ 64) : (addU64 m a b : Res ε ℕ) = .ok (a + b) := by
  unfold addU64
  rw [if_pos h]

/-! ### folds as finite sums and products -/

theorem foldl_add_eq {G α : Type} [AddCommMonoid G] (f : α → G) (l : List α) (a : G) :
    l.foldl (fun s x => s + f x) a = a + (l.map f).sum := by
  induction l generalizing a with
  | nil => simp
  | cons x xs ih => simp [ih, add_assoc]

theorem foldl_mul_eq {G α : Type} [CommMonoid G] (f : α → G) (l : List α) (a : G) :
    l.foldl (fun s x => s * f x) a = a * (l.map f).prod := by
  induction l generalizing a with
  | nil => simp
  | cons x xs ih => simp [ih, mul_assoc]

theorem foldl_add_range {G : Type} [AddCommMonoid G] (f : ℕ → G) (n : ℕ) :
    (List.range n).foldl (fun s i => s + f i) 0 = ∑ i ∈ range n, f i := by
  rw [foldl_add_eq, zero_add]
  induction n with
  | zero => simp
  | succ n ih => simp [List.range_succ, sum_range_succ, ih]

theorem foldl_mul_range {G : Type} [CommMonoid G] (f : ℕ → G) (n : ℕ) :
    (List.range n).foldl (fun s i => s * f i) 1 = ∏ i ∈ range n, f i := by
  rw [foldl_mul_eq, one_mul]
  induction n with
  | zero => simp
  | succ n ih => simp [List.range_succ, prod_range_succ, ih]

theorem foldl_ite_mul_range {F : Type} [CommMonoid F] (f : ℕ → F) (j n : ℕ) (a : F) :
    (List.range n).foldl (fun acc k => if j ≠ k then acc * f k else acc) a
      = a * ∏ k ∈ (range n).erase j, f k := by
  have h1 : (List.range n).foldl (fun acc k => if j ≠ k then acc * f k else acc) a
      = (List.range n).foldl (fun acc k => acc * (if j ≠ k then f k else 1)) a := by
    congr 1
    funext acc k
    split <;> simp
  rw [h1, foldl_mul_eq]
  congr 1
  have : ((List.range n).map fun k => if j ≠ k then f k else 1).prod
      = ∏ k ∈ range n, (if j ≠ k then f k else 1) := by
    have := foldl_mul_range (fun k => if j ≠ k then f k else (1 : F)) n
    rw [foldl_mul_eq, one_mul] at this
    exact this
  rw [this, prod_ite, prod_const_one, mul_one]
  refine prod_congr ?_ fun _ _ => rfl
  ext k
  simp [and_comm, eq_comm]

theorem loop_map {ε σ α β : Type} (f : σ → β → Res ε σ) (g : α → β) (s : σ) (l : List α) :
    loop f s (l.map g) = loop (fun s x => f s (g x)) s l := by
  induction l generalizing s with
  | nil => rfl
  | cons x xs ih =>
    rw [List.map_cons, loop_cons, loop_cons]
    congr 1
    funext s'
    exact ih s'

/-! ### polynomials from coefficient lists -/
section
variable {r : ℕ} [Fact r.Prime]

/-- The polynomial with the given coefficients, constant term first. -/
noncomputable def listPoly (c : List (ZMod r)) : (ZMod r)[X] :=
  ∑ k ∈ range c.length, C (c.getD k 0) * X ^ k

theorem listPoly_cons (a : ZMod r) (l : List (ZMod r)) : listPoly (a :: l) = C a + X * listPoly l := by
  unfold listPoly
  rw [List.length_cons, sum_range_succ', mul_sum]
  simp only [List.getD_cons_succ, List.getD_cons_zero, pow_zero, mul_one]
  rw [add_comm]
  congr 1
  refine sum_congr rfl fun k _ => ?_
  rw [pow_succ]; ring

theorem polyEval_eq (c : List (ZMod r)) (x : ZMod r) : polyEval c x = (listPoly c).eval x := by
  induction c with
  | nil => simp [polyEval, listPoly]
  | cons a l ih =>
    rw [listPoly_cons, eval_add, eval_C, eval_mul, eval_X, ← ih]
    simp only [polyEval, List.foldr_cons]
    ring

theorem polyEval_cons (a : ZMod r) (l : List (ZMod r)) (x : ZMod r) :
    polyEval (a :: l) x = polyEval l x * x + a := rfl

theorem polyEval_append (l m : List (ZMod r)) (x : ZMod r) :
    polyEval (l ++ m) x = polyEval l x + x ^ l.length * polyEval m x := by
  induction l with
  | nil => simp [polyEval]
  | cons a l ih => simp only [List.cons_append, polyEval_cons, ih, List.length_cons, pow_succ]; ring

theorem polyEval_zeros (m : List (ZMod r)) (h : ∀ a ∈ m, a = 0) (x : ZMod r) : polyEval m x = 0 := by
  induction m with
  | nil => rfl
  | cons a l ih =>
    rw [polyEval_cons, ih fun b hb => h b (by simp [hb]), h a (by simp)]
    simp

theorem trim_append (l : List (ZMod r)) : ∃ z : List (ZMod r), l = trim l ++ z ∧ ∀ a ∈ z, a = 0 := by
  refine ⟨l.rtakeWhile (· = 0), ?_, ?_⟩
  · exact List.rdropWhile_append_rtakeWhile.symm
  · intro a ha
    simpa using List.mem_rtakeWhile_imp ha

theorem polyEval_trim (l : List (ZMod r)) (x : ZMod r) : polyEval (trim l) x = polyEval l x := by
  obtain ⟨z, hz, h0⟩ := trim_append l
  conv_rhs => rw [hz]
  rw [polyEval_append, polyEval_zeros z h0, mul_zero, add_zero]

theorem polyEval_range (c : ℕ → ZMod r) (n : ℕ) (x : ZMod r) :
    polyEval ((List.range n).map c) x = ∑ k ∈ range n, c k * x ^ k := by
  rw [polyEval_eq, listPoly, eval_finsetSum]
  simp only [List.length_map, List.length_range, eval_mul, eval_C, eval_pow, eval_X]
  refine sum_congr rfl fun k hk => ?_
  rw [getD_lt _ (by simpa using hk)]
  simp

theorem trim_getElem_zero {l : List (ZMod r)} (h : trim l ≠ []) : (trim l)[0]? = l[0]? := by
  obtain ⟨z, hz, _⟩ := trim_append l
  conv_rhs => rw [hz]
  rw [List.getElem?_append_left (List.length_pos_of_ne_nil h)]

theorem trim_eq_nil_iff {l : List (ZMod r)} : trim l = [] ↔ ∀ a ∈ l, a = 0 := by
  unfold trim
  rw [List.rdropWhile_eq_nil_iff]
  simp

end

/-! ### random polynomials -/
section
variable {r : ℕ} [Fact r.Prime] {ε : Type}

theorem polyCount_ok (m : Mode) {d : ℕ} (h : d + 1 < 2 ^ 64) : (polyCount m d : Res ε ℕ) = .ok (d + 1) := by
  cases m
  · exact addU64_ok .checked h
  · exact addU64_ok .wrapping h
  · rfl

theorem polyRand_ok (m : Mode) (rng : Rng r) {d : ℕ} (h : d + 1 < 2 ^ 58) :
    (polyRand m rng d : Res ε _) = .ok (trim ((List.range (d + 1)).map rng), rng.drop (d + 1)) := by
  unfold polyRand
  rw [polyCount_ok m (lt_trans h (by norm_num)), Res.bind_ok', if_neg]
  omega

end

/-! ### the degree check -/
section
variable {r : ℕ} [Fact r.Prime] {G : Type} [AddCommGroup G] [DecidableEq G] [Module (ZMod r) G]

/-- The evaluation node of index `j` (0-based): the scalar `j + 1`. -/
def node (r : ℕ) (j : ℕ) : ZMod r := ((j + 1 : ℕ) : ZMod r)

theorem node_injOn {n : ℕ} (h : n ≤ r) : Set.InjOn (node r) (range n : Finset ℕ) := by
  intro a ha b hb hab
  simp only [coe_range, Set.mem_Iio] at ha hb
  unfold node at hab
  by_cases ha' : a + 1 = r
  · by_cases hb' : b + 1 = r
    · omega
    · rw [ha', ZMod.natCast_self] at hab
      exact absurd hab.symm (natCast_ne_zero_of_lt (by omega) (by omega))
  · by_cases hb' : b + 1 = r
    · rw [hb', ZMod.natCast_self] at hab
      exact absurd hab (natCast_ne_zero_of_lt (by omega) (by omega))
    · have := natCast_inj_of_lt (r := r) (by omega) (by omega) hab
      omega

theorem node_ne {n i j : ℕ} (hn : n ≤ r) (hi : i < n) (hj : j < n) (hij : i ≠ j) : node r i ≠ node r j := by
  intro h
  exact hij (node_injOn hn (by simpa using hi) (by simpa using hj) h)

theorem cperp_ok (poly : List (ZMod r)) {n i : ℕ} (hn : n ≤ r) (hi : i < n) :
    cperp poly n (i + 1) = .ok (polyEval poly (node r i) * Lagrange.nodalWeight (range n) (node r) i) := by
  unfold cperp range1
  rw [loop_map]
  rw [loop_eq_foldl (g := fun acc (k : ℕ) => if i ≠ k then acc * (node r i - node r k)⁻¹ else acc)]
  · rw [foldl_ite_mul_range]
    rfl
  · intro acc k hk
    have hk' : k < n := by simpa using hk
    by_cases hik : i = k
    · subst hik; simp
    · have h1 : i + 1 ≠ k + 1 := by omega
      rw [if_pos h1, if_pos hik]
      have := node_ne hn hi hk' hik
      unfold node at this
      rw [invUnwrap_ok (sub_ne_zero.2 this), Res.bind_ok']
      rfl

/-- Sum computed by the degree check, as a finite sum. -/
noncomputable def dualSum (poly : List (ZMod r)) (evs : List G) : G :=
  ∑ i ∈ range evs.length,
    (polyEval poly (node r i) * Lagrange.nodalWeight (range evs.length) (node r) i) • evs.getD i 0

theorem dualLoop_ok (poly : List (ZMod r)) (evs : List G) (hn : evs.length ≤ r) :
    loop (fun (s : G) (i : ℕ) => do
        let c ← cperp poly evs.length i
        let ev ← idx evs (i - 1)
        .ok (s + mulRepr ev c))
      0 (range1 evs.length) = .ok (dualSum poly evs) := by
  unfold range1
  rw [loop_map, loop_eq_foldl
    (g := fun s (i : ℕ) => s + (polyEval poly (node r i) *
      Lagrange.nodalWeight (range evs.length) (node r) i) • evs.getD i 0)]
  · rw [foldl_add_range]; rfl
  · intro s i hi
    have hi' : i < evs.length := by simpa using hi
    rw [cperp_ok poly hn hi', Res.bind_ok', Nat.add_sub_cancel, idx_ok hi', Res.bind_ok', mulRepr_eq_smul,
      getD_lt _ hi']

theorem ensureDegree_eq (m : Mode) (rng : Rng r) (evs : List G) {t : ℕ} (ht : t + 2 ≤ evs.length)
    (hn : evs.length ≤ r) (hcap : evs.length < 2 ^ 58) :
    ensureDegree m rng evs t =
      if dualSum ((List.range (evs.length - t - 1)).map rng) evs ≠ 0 then .err .DualCodeError
      else .ok (rng.drop (evs.length - t - 1)) := by
  unfold ensureDegree
  rw [if_neg (by omega)]
  rw [show (subU64 m evs.length t : Res PVSSError ℕ) = .ok (evs.length - t) by
    simp [subU64, (by omega : t ≤ evs.length)], Res.bind_ok']
  rw [show (subU64 m (evs.length - t) 2 : Res PVSSError ℕ) = .ok (evs.length - t - 2) by
    simp [subU64, (by omega : 2 ≤ evs.length - t)], Res.bind_ok']
  rw [polyRand_ok m rng (by omega : evs.length - t - 2 + 1 < 2 ^ 58), Res.bind_ok']
  simp only []
  rw [dualLoop_ok _ _ hn, Res.bind_ok']
  have e : evs.length - t - 2 + 1 = evs.length - t - 1 := by omega
  rw [e]
  have : dualSum (trim ((List.range (evs.length - t - 1)).map rng)) evs
      = dualSum ((List.range (evs.length - t - 1)).map rng) evs := by
    unfold dualSum
    refine sum_congr rfl fun i _ => ?_
    rw [polyEval_trim]
  rw [this]

end

/-! ### interpolation -/
section
variable {r : ℕ} [Fact r.Prime] {G : Type} [AddCommGroup G] [DecidableEq G] [Module (ZMod r) G]

/-- Lagrange coefficient at zero. -/
noncomputable def lag0 (x : ℕ → ZMod r) (t j : ℕ) : ZMod r :=
  ∏ k ∈ (range (t + 1)).erase j, x k * (x k - x j)⁻¹

theorem lagCoeff_ok {x : ℕ → Res PVSSError (ZMod r)} {y : ℕ → ZMod r} {t j : ℕ}
    (hx : ∀ k ≤ t, x k = .ok (y k)) (hy : Set.InjOn y (range (t + 1) : Finset ℕ)) (hj : j ≤ t) :
    lagCoeff x t j = .ok (lag0 y t j) := by
  unfold lagCoeff
  rw [hx j hj, Res.bind_ok', loop_eq_foldl
    (g := fun prod k => if j ≠ k then prod * (y k * (y k - y j)⁻¹) else prod)]
  · rw [foldl_ite_mul_range, one_mul]; rfl
  · intro s k hk
    have hk' : k ≤ t := by simpa [Nat.lt_succ_iff] using hk
    by_cases hjk : j = k
    · simp [hjk]
    · rw [if_pos hjk, if_pos hjk, hx k hk', Res.bind_ok', invUnwrap_ok, Res.bind_ok']
      rw [sub_ne_zero]
      intro h
      exact hjk (hy (by simpa [Nat.lt_succ_iff] using hj) (by simpa [Nat.lt_succ_iff] using hk') h.symm)

theorem nodeSimple_ok (m : Mode) {k : ℕ} (h : k + 1 < 2 ^ 64) : nodeSimple m k = .ok (node r k) := by
  unfold nodeSimple
  rw [addU64_ok m h, Res.bind_ok']
  rfl

/-- The reconstruction formula. -/
noncomputable def recon (x : ℕ → ZMod r) (evs : List G) (t : ℕ) : G :=
  ∑ j ∈ range (t + 1), lag0 x t j • evs.getD j 0

theorem reconLoop_ok {x : ℕ → Res PVSSError (ZMod r)} {y : ℕ → ZMod r} {evs : List G} {t : ℕ}
    (hx : ∀ k ≤ t, x k = .ok (y k)) (hy : Set.InjOn y (range (t + 1) : Finset ℕ)) (hl : t + 1 ≤ evs.length) :
    loop (fun (sum : G) (j : ℕ) => do
        let prod ← lagCoeff x t j
        let ev ← idx evs j
        .ok (sum + mulRepr ev prod))
      0 (List.range (t + 1)) = .ok (recon y evs t) := by
  rw [loop_eq_foldl (g := fun s j => s + lag0 y t j • evs.getD j 0)]
  · rw [foldl_add_range]; rfl
  · intro s j hj
    have hj' : j ≤ t := by simpa [Nat.lt_succ_iff] using hj
    rw [lagCoeff_ok hx hy hj', Res.bind_ok', idx_ok (by omega), Res.bind_ok', mulRepr_eq_smul,
      getD_lt _ (by omega)]

theorem lagrangeSimple_eq (m : Mode) (evs : List G) {t : ℕ} (hl : t + 1 ≤ evs.length) (hr : t + 1 ≤ r)
    (h64 : t + 1 < 2 ^ 64) : lagrangeSimple (r := r) m evs t = .ok (recon (node r) evs t) := by
  unfold lagrangeSimple
  rw [addU64_ok m h64, Res.bind_ok', if_neg (by omega)]
  exact reconLoop_ok (fun k hk => nodeSimple_ok m (by omega)) (node_injOn hr) hl

theorem idx_points_ok {points : List (ZMod r)} {t : ℕ} (hl : t + 1 ≤ points.length) :
    ∀ k ≤ t, (idx points k : Res PVSSError _) = .ok (points.getD k 0) := by
  intro k hk
  rw [idx_ok (by omega), getD_lt _ (by omega)]

theorem lagrangeG1_eq (m : Mode) (evs : List G) (points : List (ZMod r)) {t : ℕ} (hl : t + 1 ≤ evs.length)
    (hp : evs.length = points.length) (hd : Set.InjOn (fun k => points.getD k 0) (range (t + 1) : Finset ℕ))
    (h64 : t + 1 < 2 ^ 64) :
    lagrangeG1 m evs points t = .ok (recon (fun k => points.getD k 0) evs t) := by
  unfold lagrangeG1
  rw [addU64_ok m h64, Res.bind_ok', if_neg (by omega), if_neg (by omega)]
  exact reconLoop_ok (idx_points_ok (by omega)) hd hl

theorem lagrangeG2_eq (m : Mode) (evs : List G) (points : List (ZMod r)) {t : ℕ} (hl : t + 1 ≤ evs.length)
    (hp : evs.length = points.length) (hd : Set.InjOn (fun k => points.getD k 0) (range (t + 1) : Finset ℕ))
    (h64 : t + 1 < 2 ^ 64) :
    lagrangeG2 m evs points t = .ok (recon (fun k => points.getD k 0) evs t) := by
  unfold lagrangeG2
  rw [addU64_ok m h64, Res.bind_ok', if_neg (by omega), if_neg (by omega)]
  exact reconLoop_ok (idx_points_ok (by omega)) hd hl

theorem lagrangeGt_eq {K : Type} [CommMonoid K] (m : Mode) (evs : List K) (points : List ℕ) {t : ℕ}
    (hl : t + 1 ≤ evs.length) (hp : evs.length = points.length)
    (hd : Set.InjOn (fun k => ((points.getD k 0 : ℕ) : ZMod r)) (range (t + 1) : Finset ℕ))
    (h64 : t + 1 < 2 ^ 64) :
    lagrangeGt (r := r) m evs points t =
      .ok (∏ j ∈ range (t + 1), evs.getD j 1 ^ (lag0 (fun k => ((points.getD k 0 : ℕ) : ZMod r)) t j).val) := by
  unfold lagrangeGt
  rw [addU64_ok m h64, Res.bind_ok', if_neg (by omega), if_neg (by omega)]
  rw [loop_eq_foldl (g := fun s j => s * evs.getD j 1 ^
    (lag0 (fun k => ((points.getD k 0 : ℕ) : ZMod r)) t j).val)]
  · rw [foldl_mul_range]
  · intro s j hj
    have hj' : j ≤ t := by simpa [Nat.lt_succ_iff] using hj
    rw [lagCoeff_ok (y := fun k => ((points.getD k 0 : ℕ) : ZMod r)) _ hd hj', Res.bind_ok', idx_ok (by omega),
      Res.bind_ok', getD_lt _ (by omega)]
    intro k hk
    simp only [nodeU64]
    rw [idx_ok (by omega), Res.bind_ok', getD_lt _ (by omega)]

theorem lag0_eq_basis (x : ℕ → ZMod r) (t j : ℕ) :
    lag0 x t j = (Lagrange.basis (range (t + 1)) x j).eval 0 := (basis_eval_zero j).symm

/-- Reconstruction recovers the constant term. -/
theorem recon_exact {x : ℕ → ZMod r} {evs : List G} {t : ℕ} (hx : Set.InjOn x (range (t + 1) : Finset ℕ))
    (A : ℕ → G) (h : ∀ j ≤ t, evs.getD j 0 = evalM A t (x j)) : recon x evs t = A 0 := by
  unfold recon
  rw [← evalM_zero (F := ZMod r) A t, ← interp_exact hx A (by simp) 0]
  refine sum_congr rfl fun j hj => ?_
  rw [lag0_eq_basis, h j (by simpa [Nat.lt_succ_iff] using hj)]

end
end Verif
