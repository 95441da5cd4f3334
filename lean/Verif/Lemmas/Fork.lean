import Verif.Props.Oracle
import Mathlib.Algebra.Order.Chebyshev

/-! Rewinding an adversary with a random oracle (the forking lemma), by counting tables. -/

open Finset

namespace Verif

set_option linter.unusedSectionVars false

variable {X A : Type} [Fintype X] [DecidableEq X] [Fintype A] [DecidableEq A]

/-- The point of the `i`-th look-up. -/
def Spec.point' (query : List A → X) (i : ℕ) (f : X → A) : X := query (Spec.answers query f i)

/-- The `i`-th look-up is a new one. -/
def Spec.Fresh (query : List A → X) (i : ℕ) (f : X → A) : Prop :=
  ∀ j < i, Spec.point' query j f ≠ Spec.point' query i f

theorem point'_update {query : List A → X} {i : ℕ} {f : X → A} (hf : Spec.Fresh query i f) (v : A) :
    Spec.point' query i (Function.update f (Spec.point' query i f) v) = Spec.point' query i f :=
  congrArg query (answers_update query f _ v i hf)

theorem point'_update_lt {query : List A → X} {i : ℕ} {f : X → A} (hf : Spec.Fresh query i f) (v : A) {j : ℕ} (hj : j ≤ i) :
    Spec.point' query j (Function.update f (Spec.point' query i f) v) = Spec.point' query j f :=
  congrArg query (answers_update query f _ v j fun l hl => hf l (by omega))

theorem fresh_update {query : List A → X} {i : ℕ} {f : X → A} (hf : Spec.Fresh query i f) (v : A) :
    Spec.Fresh query i (Function.update f (Spec.point' query i f) v) := by
  intro j hj
  rw [point'_update hf, point'_update_lt hf v (by omega)]
  exact hf j hj

open Classical in
/-- Resampling is a bijection: sums over pairs of a table and a new value. -/
theorem sum_resample {M : Type} [AddCommMonoid M] (query : List A → X) (i : ℕ) (φ : (X → A) → (X → A) → M) :
    ∑ p ∈ univ.filter (fun p : (X → A) × A => Spec.Fresh query i p.1),
        φ p.1 (Function.update p.1 (Spec.point' query i p.1) p.2) =
      ∑ p ∈ univ.filter (fun p : (X → A) × A => Spec.Fresh query i p.1),
        φ (Function.update p.1 (Spec.point' query i p.1) p.2) p.1 := by
  refine sum_bij' (fun p _ => (Function.update p.1 (Spec.point' query i p.1) p.2, p.1 (Spec.point' query i p.1)))
    (fun p _ => (Function.update p.1 (Spec.point' query i p.1) p.2, p.1 (Spec.point' query i p.1))) ?_ ?_ ?_ ?_ ?_
  · intro p hp
    simp only [mem_filter, mem_univ, true_and] at hp ⊢
    exact fresh_update hp _
  · intro p hp
    simp only [mem_filter, mem_univ, true_and] at hp ⊢
    exact fresh_update hp _
  · intro p hp
    simp only [mem_filter, mem_univ, true_and] at hp
    simp only [point'_update hp, Function.update_idem, Function.update_eq_self, Function.update_self]
  · intro p hp
    simp only [mem_filter, mem_univ, true_and] at hp
    simp only [point'_update hp, Function.update_idem, Function.update_eq_self, Function.update_self]
  · intro p hp
    simp only [mem_filter, mem_univ, true_and] at hp
    simp only [point'_update hp, Function.update_idem, Function.update_eq_self]

open Classical in
/-- Rewinding to look-up `i`: if `F` is a set of tables for which this look-up is new, resampling its answer stays in `F`
often. -/
theorem fork_index [Nonempty A] (query : List A → X) (i : ℕ) (F : Finset (X → A)) (hF : ∀ f ∈ F, Spec.Fresh query i f) :
    Fintype.card A * F.card ^ 2 ≤ Fintype.card (X → A) * (univ.filter fun p : (X → A) × A =>
      p.1 ∈ F ∧ Function.update p.1 (Spec.point' query i p.1) p.2 ∈ F).card := by
  let W := univ.filter fun f : X → A => Spec.Fresh query i f
  let u : (X → A) → A → (X → A) := fun f v => Function.update f (Spec.point' query i f) v
  let Φ : (X → A) → ℕ := fun f => (univ.filter fun v => u f v ∈ F).card
  have hpairs : ∀ g : (X → A) × A → ℕ, ∑ p ∈ univ.filter (fun p : (X → A) × A => Spec.Fresh query i p.1), g p =
      ∑ f ∈ W, ∑ v, g (f, v) := by
    intro g
    have : (univ.filter fun p : (X → A) × A => Spec.Fresh query i p.1) = W ×ˢ univ := by
      ext p
      simp [W]
    rw [this, sum_product]
  have hFW : F ⊆ W := fun f hf => by simpa [W] using hF f hf
  -- the sum of the numbers of good answers
  have h1 : ∑ f ∈ W, Φ f = Fintype.card A * F.card := by
    have e := sum_resample query i (fun _ f' => if f' ∈ F then 1 else 0)
    rw [hpairs, hpairs] at e
    have e1 : ∑ f ∈ W, Φ f = ∑ f ∈ W, ∑ v, if u f v ∈ F then 1 else 0 := sum_congr rfl fun f _ => by
      simp only [Φ, card_filter]
    rw [e1, e]
    have e2 : ∀ f ∈ W, (∑ _v : A, if f ∈ F then 1 else 0) = Fintype.card A * if f ∈ F then 1 else 0 := by
      intro f _
      simp only [sum_const, card_univ, smul_eq_mul]
    refine (sum_congr rfl e2).trans ?_
    rw [← mul_sum, ← card_filter]
    congr 2
    ext f
    simp only [mem_filter]
    exact ⟨fun h => h.2, fun h => ⟨hFW h, h⟩⟩
  -- it does not change under resampling
  have hΦ : ∀ f, Spec.Fresh query i f → ∀ v, Φ (u f v) = Φ f := by
    intro f hf v
    simp only [Φ, u, point'_update hf, Function.update_idem]
  have h2 : ∑ f ∈ W, Φ f ^ 2 = Fintype.card A * (univ.filter fun p : (X → A) × A =>
      p.1 ∈ F ∧ Function.update p.1 (Spec.point' query i p.1) p.2 ∈ F).card := by
    have e := sum_resample query i (fun f f' => if f' ∈ F then Φ f else 0)
    rw [hpairs, hpairs] at e
    have e1 : ∑ f ∈ W, Φ f ^ 2 = ∑ f ∈ W, ∑ v, if u f v ∈ F then Φ f else 0 := sum_congr rfl fun f _ => by
      rw [← sum_filter, sum_const, smul_eq_mul, sq]
    rw [e1, e]
    have e2 : ∀ f ∈ W, (∑ v, if f ∈ F then Φ (u f v) else 0) = Fintype.card A * if f ∈ F then Φ f else 0 := by
      intro f hf
      have hf : Spec.Fresh query i f := by simpa [W] using hf
      simp only [hΦ f hf, sum_const, card_univ, smul_eq_mul]
    have e3 := sum_congr (rfl : W = W) e2
    refine e3.trans ?_
    rw [← mul_sum]
    congr 1
    rw [← sum_filter, show W.filter (· ∈ F) = F by
      ext f
      simp only [mem_filter]
      exact ⟨fun h => h.2, fun h => ⟨hFW h, h⟩⟩]
    have : (univ.filter fun p : (X → A) × A => p.1 ∈ F ∧ Function.update p.1 (Spec.point' query i p.1) p.2 ∈ F) =
        (F ×ˢ univ).filter fun p => u p.1 p.2 ∈ F := by
      ext p
      simp [u]
    rw [this, card_filter, sum_product]
    refine sum_congr rfl fun f _ => ?_
    simp only [Φ, card_filter]
  have h3 := sq_sum_le_card_mul_sum_sq (s := W) (f := Φ)
  rw [h1, h2] at h3
  have hA : 0 < Fintype.card A := Fintype.card_pos
  have hW : W.card ≤ Fintype.card (X → A) := card_le_univ W
  set P := (univ.filter fun p : (X → A) × A =>
      p.1 ∈ F ∧ Function.update p.1 (Spec.point' query i p.1) p.2 ∈ F).card
  have h4 : Fintype.card A * (Fintype.card A * F.card ^ 2) ≤ Fintype.card A * (Fintype.card (X → A) * P) := by
    calc _ = (Fintype.card A * F.card) ^ 2 := by ring
      _ ≤ W.card * (Fintype.card A * P) := h3
      _ ≤ Fintype.card (X → A) * (Fintype.card A * P) := Nat.mul_le_mul_right _ hW
      _ = _ := by ring
  exact Nat.le_of_mul_le_mul_left h4 hA

open Classical in
/-- The forking lemma. If an adversary with `k` look-ups, the last of which is the critical one, succeeds for the tables in
`T`, then rerunning it with a new answer at the critical point succeeds again with the same critical point and a different
answer for many pairs of a table and a new answer. -/
theorem fork [Nonempty A] (query : List A → X) (k : ℕ) (T : Finset (X → A)) :
    Fintype.card A * T.card ^ 2 ≤ (k + 1) * Fintype.card (X → A) *
      ((univ.filter fun p : (X → A) × A =>
        p.1 ∈ T ∧ Function.update p.1 (Spec.point' query k p.1) p.2 ∈ T ∧
        Spec.point' query k (Function.update p.1 (Spec.point' query k p.1) p.2) = Spec.point' query k p.1 ∧
        p.2 ≠ p.1 (Spec.point' query k p.1)).card + T.card) := by
  -- index of the first look-up at the critical point
  have hex : ∀ f : X → A, ∃ i, Spec.point' query i f = Spec.point' query k f := fun f => ⟨k, rfl⟩
  let I : (X → A) → ℕ := fun f => Nat.find (hex f)
  have hI : ∀ f, Spec.point' query (I f) f = Spec.point' query k f := fun f => Nat.find_spec (hex f)
  have hIk : ∀ f, I f ≤ k := fun f => Nat.find_min' (hex f) rfl
  have hfresh : ∀ f, Spec.Fresh query (I f) f := by
    intro f j hj he
    exact Nat.find_min (hex f) hj (he.trans (hI f))
  let F : ℕ → Finset (X → A) := fun i => T.filter fun f => I f = i
  have hFfresh : ∀ i, ∀ f ∈ F i, Spec.Fresh query i f := by
    intro i f hf
    simp only [F, mem_filter] at hf
    rw [← hf.2]
    exact hfresh f
  let P : ℕ → Finset ((X → A) × A) := fun i => univ.filter fun p : (X → A) × A =>
      p.1 ∈ F i ∧ Function.update p.1 (Spec.point' query i p.1) p.2 ∈ F i
  have hT : T.card = ∑ i ∈ range (k + 1), (F i).card :=
    card_eq_sum_card_fiberwise fun f _ => by simpa using Nat.lt_succ_of_le (hIk f)
  have h1 : T.card ^ 2 ≤ (k + 1) * ∑ i ∈ range (k + 1), (F i).card ^ 2 := by
    rw [hT]
    simpa using sq_sum_le_card_mul_sum_sq (s := range (k + 1)) (f := fun i => (F i).card)
  have h2 : Fintype.card A * ∑ i ∈ range (k + 1), (F i).card ^ 2 ≤ Fintype.card (X → A) * ∑ i ∈ range (k + 1), (P i).card := by
    rw [mul_sum, mul_sum]
    exact sum_le_sum fun i _ => fork_index query i (F i) (hFfresh i)
  have h3 : ∑ i ∈ range (k + 1), (P i).card ≤ (univ.filter fun p : (X → A) × A =>
        p.1 ∈ T ∧ Function.update p.1 (Spec.point' query k p.1) p.2 ∈ T ∧
        Spec.point' query k (Function.update p.1 (Spec.point' query k p.1) p.2) = Spec.point' query k p.1 ∧
        p.2 ≠ p.1 (Spec.point' query k p.1)).card + T.card := by
    rw [← card_biUnion]
    · have hTc : T.card = (T.image fun f => (f, f (Spec.point' query k f))).card := by
        rw [card_image_of_injective]
        intro f g h
        exact (Prod.mk.inj h).1
      rw [hTc]
      refine le_trans (card_le_card ?_) (card_union_le _ _)
      intro p hp
      simp only [mem_biUnion, P, F, mem_filter, mem_univ, true_and] at hp
      obtain ⟨i, -, ⟨hp1, hp2⟩, hp3, hp4⟩ := hp
      have hik : Spec.point' query i p.1 = Spec.point' query k p.1 := by rw [← hp2]; exact hI _
      rw [hik] at hp3 hp4
      simp only [mem_union, mem_filter, mem_univ, true_and, mem_image]
      by_cases hv : p.2 = p.1 (Spec.point' query k p.1)
      · exact .inr ⟨p.1, hp1, Prod.ext rfl hv.symm⟩
      · refine .inl ⟨hp1, hp3, ?_, hv⟩
        rw [← hI, hp4, ← hik]
        have := hfresh p.1
        rw [hp2] at this
        exact point'_update this _
    · intro i _ j _ hij
      rw [Function.onFun, disjoint_left]
      intro p h1 h2
      simp only [P, F, mem_filter, mem_univ, true_and] at h1 h2
      exact hij (h1.1.2.symm.trans h2.1.2)
  calc Fintype.card A * T.card ^ 2 ≤ Fintype.card A * ((k + 1) * ∑ i ∈ range (k + 1), (F i).card ^ 2) :=
        Nat.mul_le_mul_left _ h1
    _ = (k + 1) * (Fintype.card A * ∑ i ∈ range (k + 1), (F i).card ^ 2) := by ring
    _ ≤ (k + 1) * (Fintype.card (X → A) * ∑ i ∈ range (k + 1), (P i).card) := Nat.mul_le_mul_left _ h2
    _ ≤ (k + 1) * (Fintype.card (X → A) * _) := Nat.mul_le_mul_left _ (Nat.mul_le_mul_left _ h3)
    _ = _ := by ring

/-- Appending a last look-up does not change the earlier ones. -/
theorem answers_last (query crit : List A → X) (k : ℕ) (f : X → A) {i : ℕ} (hi : i ≤ k) :
    Spec.answers (fun l => if l.length = k then crit l else query l) f i = Spec.answers query f i := by
  induction i with
  | zero => rfl
  | succ i ih =>
    simp only [Spec.answers]
    rw [ih (by omega), if_neg (by rw [answers_length]; omega)]

theorem point'_last (query crit : List A → X) (k : ℕ) (f : X → A) :
    Spec.point' (fun l => if l.length = k then crit l else query l) k f = crit (Spec.answers query f k) := by
  unfold Spec.point'
  rw [answers_last query crit k f le_rfl]
  exact if_pos (answers_length query f k)

open Classical in
/-- The forking lemma with the critical point computed from the answers to the `k` look-ups. -/
theorem fork_crit [Nonempty A] (query crit : List A → X) (k : ℕ) (T : Finset (X → A)) :
    Fintype.card A * T.card ^ 2 ≤ (k + 1) * Fintype.card (X → A) *
      ((univ.filter fun p : (X → A) × A =>
        p.1 ∈ T ∧ Function.update p.1 (crit (Spec.answers query p.1 k)) p.2 ∈ T ∧
        crit (Spec.answers query (Function.update p.1 (crit (Spec.answers query p.1 k)) p.2) k) =
          crit (Spec.answers query p.1 k) ∧
        p.2 ≠ p.1 (crit (Spec.answers query p.1 k))).card + T.card) := by
  have := fork (fun l => if l.length = k then crit l else query l) k T
  simpa only [point'_last] using this

end Verif
