import Verif.Lemmas.Sampler

/-!
# Programs whose results are uniform on a finite set

`UniformVia R e`: the program `R` returns the values `e x`, for `x` in a finite type, each with the same probability.  Repetition and pairing keep this,
and the probability of an event becomes a count.
-/

open scoped ENNReal
open Finset

namespace Verif

namespace Sampler

variable {α β X Y : Type}

open Classical in
/-- The probability of an event. -/
noncomputable def chance (R : Sampler α) (p : α → Prop) : ℝ≥0∞ := ∑' a, if p a then prob R a else 0

/-- `R` returns every `e x` with probability `1 / |X|` and nothing else. -/
structure UniformVia [Fintype X] (R : Sampler α) (e : X → α) : Prop where
  det : Det R
  inj : Function.Injective e
  on : ∀ x, prob R (e x) = (Fintype.card X : ℝ≥0∞)⁻¹
  off : ∀ a, (∀ x, e x ≠ a) → prob R a = 0

open Classical in
theorem UniformVia.tsum [Fintype X] {R : Sampler α} {e : X → α} (h : UniformVia R e) (f : α → ℝ≥0∞) :
    ∑' a, prob R a * f a = (Fintype.card X : ℝ≥0∞)⁻¹ * ∑ x, f (e x) := by
  rw [← tsum_fintype (L := .unconditional X), ← h.inj.tsum_eq (f := fun a => prob R a * f a), ← ENNReal.tsum_mul_left]
  · exact tsum_congr fun x => by rw [h.on]
  · intro a ha
    by_contra hn
    exact ha (by show prob R a * f a = 0; rw [h.off a fun x hx => hn ⟨x, hx⟩, zero_mul])

open Classical in
/-- The probability of an event is the number of its cases over that of all. -/
theorem UniformVia.chance_eq [Fintype X] {R : Sampler α} {e : X → α} (h : UniformVia R e) (p : α → Prop) :
    chance R p = (univ.filter fun x => p (e x)).card / (Fintype.card X : ℝ≥0∞) := by
  have := h.tsum fun a => if p a then 1 else 0
  unfold chance
  rw [show (fun a => if p a then prob R a else 0) = fun a => prob R a * if p a then 1 else 0 from
    funext fun a => by split <;> simp, this, Finset.sum_boole, div_eq_mul_inv, mul_comm]

open Classical in
/-- Independent draws of a pair. -/
theorem UniformVia.pair [Fintype X] [Fintype Y] {R : Sampler α} {S : Sampler β} {e : X → α} {f : Y → β} (hR : UniformVia R e)
    (hS : UniformVia S f) {γ : Type} {g : α → β → γ} (hg : Function.Injective fun z : X × Y => g (e z.1) (f z.2)) :
    UniformVia (bind R fun a => bind S fun b => ret (g a b)) fun z : X × Y => g (e z.1) (f z.2) := by
  have hprob : ∀ c, prob (bind R fun a => bind S fun b => ret (g a b)) c =
      (Fintype.card X : ℝ≥0∞)⁻¹ * ∑ x, (Fintype.card Y : ℝ≥0∞)⁻¹ * ∑ y, if g (e x) (f y) = c then 1 else 0 := by
    intro c
    rw [prob_bind hR.det, hR.tsum]
    congr 1
    refine sum_congr rfl fun x _ => ?_
    rw [prob_bind hS.det, hS.tsum]
    simp only [prob_ret]
  refine ⟨det_bind hR.det fun _ => det_bind hS.det fun _ => det_ret _, hg, fun z => ?_, fun c hc => ?_⟩
  · rw [hprob, ← mul_sum, Fintype.card_prod, Nat.cast_mul,
      ENNReal.mul_inv (.inr (ENNReal.natCast_ne_top _)) (.inl (ENNReal.natCast_ne_top _)), ← mul_assoc,
      ← Finset.sum_product' univ univ (fun x y => if g (e x) (f y) = g (e z.1) (f z.2) then (1 : ℝ≥0∞) else 0)]
    rw [Finset.sum_eq_single z, if_pos rfl, mul_one]
    · intro w _ hw
      exact if_neg fun h => hw (hg h)
    · intro h; exact absurd (mem_product.2 ⟨mem_univ _, mem_univ _⟩) h
  · rw [hprob]
    simp only [if_neg (hc (_, _)), sum_const_zero, mul_zero]

open Classical in
/-- Repeated draws. -/
theorem UniformVia.times [Fintype X] {R : Sampler α} {e : X → α} (h : UniformVia R e) (n : ℕ) :
    UniformVia (Sampler.times R n) fun c : Fin n → X => List.ofFn fun i => e (c i) := by
  induction n with
  | zero =>
    refine ⟨det_ret _, fun _ _ _ => Subsingleton.elim _ _, fun x => ?_, fun a ha => ?_⟩
    · rw [Sampler.times, prob_ret]; simp
    · rw [Sampler.times, prob_ret, if_neg fun h => ha finZeroElim (by simpa using h)]
  | succ n ih =>
    have hinj : Function.Injective fun z : X × (Fin n → X) => e z.1 :: List.ofFn fun i => e (z.2 i) := by
      intro z w hzw
      obtain ⟨h1, h2⟩ := List.cons.inj hzw
      exact Prod.ext (h.inj h1) (ih.inj h2)
    have hp := h.pair ih (g := fun a as => a :: as) hinj
    have hfun : ∀ c : Fin (n + 1) → X, (List.ofFn fun i => e (c i)) = e (c 0) :: List.ofFn fun i => e (c i.succ) :=
      fun c => List.ofFn_succ
    refine ⟨hp.det, fun c d hcd => ?_, fun c => ?_, fun a ha => ?_⟩
    · have := List.ofFn_injective hcd
      exact funext fun i => h.inj (congrFun this i)
    · simp only [hfun]
      rw [Sampler.times]
      refine (hp.on (c 0, fun i => c i.succ)).trans ?_
      simp only [Fintype.card_prod, Fintype.card_fun, Fintype.card_fin]
      congr 2
      rw [pow_succ, mul_comm]
    · rw [Sampler.times]
      refine hp.off a fun z hz => ha (Fin.cons z.1 z.2) ?_
      rw [hfun]
      simpa using hz

end Sampler

end Verif
