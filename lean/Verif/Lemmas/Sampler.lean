import Verif.Model.ArkRand
import Mathlib.Topology.Algebra.InfiniteSum.ENNReal
import Mathlib.Analysis.SpecificLimits.Basic

/-!
# Laws of programs that draw random words
-/

open scoped ENNReal

namespace Verif.Sampler

variable {α β : Type}

/-- The share of all tapes that begin with the words `l`. -/
noncomputable def share (l : List UInt32) : ℝ≥0∞ := ((2 : ℝ≥0∞) ^ 32)⁻¹ ^ l.length

/-- The probability that the program returns `a`: the tapes that begin with a sequence of words on which it does. -/
noncomputable def prob (R : Sampler α) (a : α) : ℝ≥0∞ := ∑' l : {l // R l a}, share l.1

/-- On one tape the program reads one sequence of words and returns one value. -/
def Det (R : Sampler α) : Prop := ∀ l₁ a l₂ b m₁ m₂, R l₁ a → R l₂ b → l₁ ++ m₁ = l₂ ++ m₂ → l₁ = l₂ ∧ a = b

/-- It returns something, with probability one. -/
def Total (R : Sampler α) : Prop := ∑' a, prob R a = 1

theorem share_append (l m : List UInt32) : share (l ++ m) = share l * share m := by
  simp [share, pow_add]

theorem det_ret (a : α) : Det (ret a) := by
  rintro l₁ x l₂ y m₁ m₂ ⟨rfl, rfl⟩ ⟨rfl, rfl⟩ -
  exact ⟨rfl, rfl⟩

theorem prob_ret [DecidableEq α] (a b : α) : prob (ret a) b = if a = b then 1 else 0 := by
  unfold prob
  split
  · rename_i h
    rw [tsum_eq_single ⟨[], rfl, h⟩ (fun l hl => absurd (Subtype.ext l.2.1) hl)]
    simp [share]
  · rename_i h
    have : IsEmpty {l // ret a l b} := ⟨fun l => h l.2.2⟩
    simp

theorem det_bind {R : Sampler α} {S : α → Sampler β} (hR : Det R) (hS : ∀ a, Det (S a)) : Det (bind R S) := by
  rintro l₁ b₁ l₂ b₂ m₁ m₂ ⟨u₁, a₁, v₁, h1, h2, rfl⟩ ⟨u₂, a₂, v₂, h3, h4, rfl⟩ h
  rw [List.append_assoc, List.append_assoc] at h
  obtain ⟨rfl, rfl⟩ := hR _ _ _ _ _ _ h1 h3 h
  obtain ⟨rfl, rfl⟩ := hS _ _ _ _ _ _ _ h2 h4 (List.append_cancel_left h)
  exact ⟨rfl, rfl⟩

theorem prob_bind {R : Sampler α} {S : α → Sampler β} (hR : Det R) (b : β) :
    prob (bind R S) b = ∑' a, prob R a * prob (S a) b := by
  let f : (Σ a, {l // R l a} × {l // S a l b}) → {l // bind R S l b} :=
    fun x => ⟨x.2.1.1 ++ x.2.2.1, _, x.1, _, x.2.1.2, x.2.2.2, rfl⟩
  have hf : Function.Bijective f := by
    constructor
    · rintro ⟨a, ⟨l, hl⟩, m, hm⟩ ⟨a', ⟨l', hl'⟩, m', hm'⟩ h
      have h2 : l ++ m = l' ++ m' := congrArg Subtype.val h
      obtain ⟨rfl, rfl⟩ := hR _ _ _ _ _ _ hl hl' h2
      obtain rfl := List.append_cancel_left h2
      rfl
    · rintro ⟨l, l₁, a, l₂, h1, h2, rfl⟩
      exact ⟨⟨a, ⟨l₁, h1⟩, l₂, h2⟩, rfl⟩
  unfold prob
  rw [← (Equiv.ofBijective f hf).tsum_eq, ENNReal.tsum_sigma']
  refine tsum_congr fun a => ?_
  rw [← ENNReal.tsum_mul_right, ENNReal.tsum_prod']
  refine tsum_congr fun l => ?_
  rw [← ENNReal.tsum_mul_left]
  exact tsum_congr fun m => share_append _ _

theorem total_ret (a : α) : Total (ret a) := by
  classical
  unfold Total
  rw [tsum_eq_single a (fun b hb => by rw [prob_ret, if_neg hb.symm]), prob_ret, if_pos rfl]

theorem total_bind {R : Sampler α} {S : α → Sampler β} (hR : Det R) (tR : Total R) (tS : ∀ a, Total (S a)) : Total (bind R S) := by
  unfold Total
  rw [tsum_congr fun b => prob_bind hR b, ENNReal.tsum_comm, tsum_congr fun a => (ENNReal.tsum_mul_left.trans (congrArg _ (tS a)))]
  simp only [mul_one]
  exact tR

/-- `k` rounds without a result, then one with. -/
def loopK (R : Sampler (Option α)) : ℕ → Sampler α
  | 0 => fun l a => R l (some a)
  | k + 1 => bind (fun l (_ : Unit) => R l none) fun _ => loopK R k

theorem det_some {R : Sampler (Option α)} (hR : Det R) : Det (fun l a => R l (some a)) := by
  intro l₁ a l₂ b m₁ m₂ h1 h2 h
  obtain ⟨h3, h4⟩ := hR _ _ _ _ _ _ h1 h2 h
  exact ⟨h3, Option.some.inj h4⟩

theorem det_none {R : Sampler (Option α)} (hR : Det R) : Det (fun l (_ : Unit) => R l none) := by
  intro l₁ a l₂ b m₁ m₂ h1 h2 h
  exact ⟨(hR _ _ _ _ _ _ h1 h2 h).1, rfl⟩

theorem det_loopK {R : Sampler (Option α)} (hR : Det R) : ∀ k, Det (loopK R k)
  | 0 => det_some hR
  | k + 1 => det_bind (det_none hR) fun _ => det_loopK hR k

theorem prob_loopK {R : Sampler (Option α)} (hR : Det R) (a : α) : ∀ k, prob (loopK R k) a = prob R none ^ k * prob R (some a)
  | 0 => by rw [pow_zero, one_mul]; rfl
  | k + 1 => by
    rw [loopK, prob_bind (det_none hR), tsum_fintype, Finset.sum_eq_single ()
      (fun x _ hx => absurd rfl hx) (fun h => absurd (Finset.mem_univ _) h), prob_loopK hR a k, ← mul_assoc, pow_succ']
    rfl

theorem loop_iff {R : Sampler (Option α)} {l : List UInt32} {a : α} : loop R l a ↔ ∃ k, loopK R k l a := by
  constructor
  · intro h
    induction h with
    | done h => exact ⟨0, h⟩
    | again h _ ih =>
      obtain ⟨k, hk⟩ := ih
      exact ⟨k + 1, _, (), _, h, hk, rfl⟩
  · rintro ⟨k, hk⟩
    induction k generalizing l with
    | zero => exact .done hk
    | succ k ih =>
      obtain ⟨l₁, _, l₂, h1, h2, rfl⟩ := hk
      exact .again h1 (ih h2)

theorem loopK_unique {R : Sampler (Option α)} (hR : Det R) {l₁ l₂ m₁ m₂ : List UInt32} {a b : α} :
    ∀ {j k}, loopK R j l₁ a → loopK R k l₂ b → l₁ ++ m₁ = l₂ ++ m₂ → j = k ∧ l₁ = l₂ ∧ a = b
  | 0, 0, h1, h2, h => ⟨rfl, det_some hR _ _ _ _ _ _ h1 h2 h⟩
  | 0, k + 1, h1, ⟨u, _, v, h2, _, e⟩, h => by
    subst e
    rw [List.append_assoc] at h
    cases (hR _ _ _ _ _ _ h1 h2 h).2
  | j + 1, 0, ⟨u, _, v, h1, _, e⟩, h2, h => by
    subst e
    rw [List.append_assoc] at h
    cases (hR _ _ _ _ _ _ h1 h2 h).2
  | j + 1, k + 1, ⟨u, _, v, h1, h3, e⟩, ⟨u', _, v', h2, h4, e'⟩, h => by
    subst e e'
    rw [List.append_assoc, List.append_assoc] at h
    obtain ⟨rfl, -⟩ := hR _ _ _ _ _ _ h1 h2 h
    obtain ⟨rfl, rfl, rfl⟩ := loopK_unique hR h3 h4 (List.append_cancel_left h)
    exact ⟨rfl, rfl, rfl⟩

theorem det_loop {R : Sampler (Option α)} (hR : Det R) : Det (loop R) := by
  intro l₁ a l₂ b m₁ m₂ h1 h2 h
  obtain ⟨j, h1⟩ := loop_iff.1 h1
  obtain ⟨k, h2⟩ := loop_iff.1 h2
  exact (loopK_unique hR h1 h2 h).2

theorem prob_loop {R : Sampler (Option α)} (hR : Det R) (a : α) : prob (loop R) a = (1 - prob R none)⁻¹ * prob R (some a) := by
  let f : (Σ k, {l // loopK R k l a}) → {l // loop R l a} := fun x => ⟨x.2.1, loop_iff.2 ⟨x.1, x.2.2⟩⟩
  have hf : Function.Bijective f := by
    constructor
    · rintro ⟨j, l, hl⟩ ⟨k, m, hm⟩ h
      have h : l = m := congrArg Subtype.val h
      obtain ⟨rfl, rfl, -⟩ := loopK_unique (m₁ := []) (m₂ := []) hR hl hm (by rw [h])
      rfl
    · rintro ⟨l, hl⟩
      obtain ⟨k, hk⟩ := loop_iff.1 hl
      exact ⟨⟨k, l, hk⟩, rfl⟩
  have h : prob (loop R) a = ∑' k, prob (loopK R k) a := by
    unfold prob
    rw [← (Equiv.ofBijective f hf).tsum_eq, ENNReal.tsum_sigma']
    rfl
  rw [h, tsum_congr fun k => prob_loopK hR a k, ENNReal.tsum_mul_right, ENNReal.tsum_geometric]

theorem total_loop {R : Sampler (Option α)} (hR : Det R) (htot : Total R) (h1 : prob R none ≠ 1) : Total (loop R) := by
  have h := htot
  unfold Total at h
  rw [← (Equiv.optionEquivSumPUnit.{0} α).symm.tsum_eq, Summable.tsum_sum ENNReal.summable ENNReal.summable, add_comm] at h
  simp only [Equiv.optionEquivSumPUnit_symm_inl, Equiv.optionEquivSumPUnit_symm_inr, tsum_fintype, Finset.univ_unique,
    Finset.sum_const, Finset.card_singleton, one_smul] at h
  have hle : prob R none ≤ 1 := h ▸ le_self_add
  have hn : prob R none ≠ ∞ := ne_top_of_le_ne_top ENNReal.one_ne_top hle
  have hF : 1 - prob R none = ∑' a, prob R (some a) := by
    rw [← h, add_comm]
    exact ENNReal.add_sub_cancel_right hn
  unfold Total
  rw [tsum_congr fun a => prob_loop hR a, ENNReal.tsum_mul_left, ← hF]
  refine ENNReal.inv_mul_cancel ?_ (ENNReal.sub_ne_top ENNReal.one_ne_top)
  exact (tsub_pos_of_lt (lt_of_le_of_ne hle h1)).ne'

/-- A loop whose body returns `a` with probability `c` for each `a` of a set of `N` values, and none of the others. -/
theorem prob_loop_uniform [Fintype α] {R : Sampler (Option α)} (hR : Det R) (htot : Total R) {c : ℝ≥0∞} {s : Finset α}
    (hc : ∀ a ∈ s, prob R (some a) = c) (hc' : ∀ a ∉ s, prob R (some a) = 0) (hc0 : c ≠ 0) (hs : s.Nonempty) (a : α) [Decidable (a ∈ s)] :
    prob (loop R) a = if a ∈ s then (s.card : ℝ≥0∞)⁻¹ else 0 := by
  classical
  have hsum : prob R none + s.card * c = 1 := by
    rw [← htot, tsum_fintype, Fintype.sum_option]
    congr 1
    rw [← Finset.sum_subset (Finset.subset_univ s) fun a _ ha => hc' a ha, Finset.sum_congr rfl hc, Finset.sum_const, nsmul_eq_mul]
  have hn : prob R none ≠ ∞ := fun h => by rw [h, top_add] at hsum; cases hsum
  have hct : c ≠ ∞ := fun h => by
    rw [h, ENNReal.mul_top (by simpa using hs.ne_empty), add_top] at hsum; cases hsum
  rw [prob_loop hR]
  have hF : 1 - prob R none = s.card * c := by
    rw [← hsum, add_comm]
    exact ENNReal.add_sub_cancel_right hn
  rw [hF]
  split
  · rename_i ha
    rw [hc a ha, ENNReal.mul_inv (.inl (by simpa using hs.ne_empty)) (.inl (ENNReal.natCast_ne_top _)), mul_assoc,
      ENNReal.inv_mul_cancel hc0 hct, mul_one]
  · rename_i ha
    rw [hc' a ha, mul_zero]

/-! ### blocks of words -/

theorem det_block (n : ℕ) (D : List UInt32 → α) : Det (block n D) := by
  rintro l₁ a l₂ b m₁ m₂ ⟨h1, rfl⟩ ⟨h2, rfl⟩ h
  obtain ⟨rfl, -⟩ := List.append_inj h (h1.trans h2.symm)
  exact ⟨rfl, rfl⟩

/-- The words of a number. -/
def ofVal : ℕ → ℕ → List UInt32
  | 0, _ => []
  | n + 1, v => UInt32.ofNat (v % 2 ^ 32) :: ofVal n (v / 2 ^ 32)

theorem length_ofVal (n v : ℕ) : (ofVal n v).length = n := by
  induction n generalizing v with
  | zero => rfl
  | succ n ih => simp [ofVal, ih]

theorem wordVal_ofVal (n v : ℕ) (h : v < 2 ^ (32 * n)) : wordVal (ofVal n v) = v := by
  induction n generalizing v with
  | zero =>
    rw [mul_zero, pow_zero] at h
    simp only [ofVal, wordVal]
    omega
  | succ n ih =>
    have h1 : v / 2 ^ 32 < 2 ^ (32 * n) := by
      rw [Nat.div_lt_iff_lt_mul (by positivity), ← pow_add]
      rwa [Nat.mul_succ] at h
    simp only [ofVal, wordVal]
    rw [ih _ h1, UInt32.toNat_ofNat_of_lt' (by simpa [UInt32.size] using Nat.mod_lt v (by positivity))]
    exact Nat.mod_add_div v (2 ^ 32)

theorem ofVal_wordVal (l : List UInt32) : ofVal l.length (wordVal l) = l := by
  induction l with
  | nil => rfl
  | cons w l ih =>
    have hw : w.toNat < 2 ^ 32 := w.toNat_lt
    simp only [List.length_cons, ofVal, wordVal]
    rw [Nat.add_mul_mod_self_left, Nat.mod_eq_of_lt hw, Nat.add_mul_div_left _ _ (by positivity), Nat.div_eq_of_lt hw, zero_add, ih,
      UInt32.ofNat_toNat]

theorem wordVal_lt (l : List UInt32) : wordVal l < 2 ^ (32 * l.length) := by
  induction l with
  | nil => simp [wordVal]
  | cons w l ih =>
    have hw : w.toNat < 2 ^ 32 := w.toNat_lt
    simp only [wordVal, List.length_cons, Nat.mul_succ, pow_add]
    nlinarith

/-- Words and numbers. -/
def wordEquiv (n : ℕ) : {l : List UInt32 // l.length = n} ≃ Fin (2 ^ (32 * n)) where
  toFun l := ⟨wordVal l.1, by have := wordVal_lt l.1; rwa [l.2] at this⟩
  invFun v := ⟨ofVal n v, length_ofVal _ _⟩
  left_inv l := Subtype.ext (by have := ofVal_wordVal l.1; rwa [l.2] at this)
  right_inv v := Fin.ext (wordVal_ofVal n v v.2)

/-- The probability of a result that depends on the number read. -/
theorem prob_block (n : ℕ) (D : ℕ → α) (a : α) [DecidablePred fun v : Fin (2 ^ (32 * n)) => D v = a] :
    prob (block n fun l => D (wordVal l)) a =
      (Finset.univ.filter fun v : Fin (2 ^ (32 * n)) => D v = a).card * ((2 : ℝ≥0∞) ^ (32 * n))⁻¹ := by
  let e : {l // block n (fun l => D (wordVal l)) l a} ≃ {v : Fin (2 ^ (32 * n)) // D v = a} :=
    { toFun := fun l => ⟨wordEquiv n ⟨l.1, l.2.1⟩, l.2.2⟩
      invFun := fun v => ⟨((wordEquiv n).symm v.1).1, ((wordEquiv n).symm v.1).2, by
        have := congrArg Fin.val ((wordEquiv n).apply_symm_apply v.1)
        change wordVal _ = _ at this
        simp only [this]
        exact v.2⟩
      left_inv := fun l => Subtype.ext (show ((wordEquiv n).symm (wordEquiv n ⟨l.1, l.2.1⟩)).1 = l.1 by
        rw [Equiv.symm_apply_apply])
      right_inv := fun v => Subtype.ext ((wordEquiv n).apply_symm_apply v.1) }
  unfold prob
  have h : ∀ l : {l // block n (fun l => D (wordVal l)) l a}, share l.1 = ((2 : ℝ≥0∞) ^ (32 * n))⁻¹ := by
    intro l
    rw [share, l.2.1, pow_mul, ENNReal.inv_pow (a := 2 ^ 32)]
  rw [tsum_congr h, ← e.symm.tsum_eq, tsum_fintype, Finset.sum_const, nsmul_eq_mul, Finset.card_univ, Fintype.card_subtype]

theorem total_block [Fintype α] [DecidableEq α] (n : ℕ) (D : ℕ → α) : Total (block n fun l => D (wordVal l)) := by
  unfold Total
  have h : ∀ a, prob (block n fun l => D (wordVal l)) a =
      (Finset.univ.filter fun v : Fin (2 ^ (32 * n)) => D v = a).card * ((2 : ℝ≥0∞) ^ (32 * n))⁻¹ := fun a => prob_block n D a
  rw [tsum_fintype, Finset.sum_congr rfl fun a _ => h a, ← Finset.sum_mul, ← Nat.cast_sum,
    ← Finset.card_eq_sum_card_fiberwise (f := fun v : Fin (2 ^ (32 * n)) => D v) (fun _ _ => Finset.mem_coe.2 (Finset.mem_univ _)),
    Finset.card_univ, Fintype.card_fin, Nat.cast_pow]
  exact ENNReal.mul_inv_cancel (by simp) (by simp)

/-- Every residue modulo `M` occurs equally often. -/
theorem card_mod (N M k y : ℕ) (hN : N = M * k) (hy : y < M) : (Finset.univ.filter fun v : Fin N => v.1 % M = y).card = k := by
  subst hN
  have h : (Finset.univ.filter fun v : Fin (M * k) => v.1 % M = y) = Finset.univ.image fun i : Fin k =>
      (⟨y + M * i, by
        have := i.2
        calc y + M * i < M + M * i := by omega
          _ = M * (i + 1) := by ring
          _ ≤ M * k := Nat.mul_le_mul_left _ this⟩ : Fin (M * k)) := by
    ext v
    simp only [Finset.mem_filter, Finset.mem_univ, true_and, Finset.mem_image]
    constructor
    · rintro rfl
      exact ⟨⟨v / M, Nat.div_lt_of_lt_mul v.2⟩, Fin.ext (Nat.mod_add_div v M)⟩
    · rintro ⟨i, rfl⟩
      simp only [Nat.add_mul_mod_self_left, Nat.mod_eq_of_lt hy]
  rw [h, Finset.card_image_of_injective, Finset.card_univ, Fintype.card_fin]
  intro i j hij
  have := congrArg Fin.val hij
  simp only [Nat.add_left_cancel_iff] at this
  exact Fin.ext (Nat.eq_of_mul_eq_mul_left (by omega) this)

end Verif.Sampler
