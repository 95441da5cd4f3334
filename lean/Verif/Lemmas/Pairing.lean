import Verif.Model.Laws
import Verif.Lemmas.Basic
import Mathlib.Tactic.Abel

/-! Consequences of the pairing laws. -/

namespace Verif

set_option linter.unusedSectionVars false

variable {r : ℕ} [Fact r.Prime] {G1 G2 K : Type} [AddCommGroup G1] [AddCommGroup G2] [CommMonoid K]
  [Module (ZMod r) G1] [Module (ZMod r) G2] {S : Suite r G1 G2 K}

namespace PairLaws

theorem neg_left (h : PairLaws S) (P : G1) (Q : G2) : S.pair P Q * S.pair (-P) Q = 1 := by
  rw [← h.add_left, add_neg_cancel, h.zero_left]

theorem neg_left' (h : PairLaws S) (P : G1) (Q : G2) : S.pair (-P) Q * S.pair P Q = 1 := by
  rw [← h.add_left, neg_add_cancel, h.zero_left]

theorem mul_right_cancel (h : PairLaws S) {a b : K} {P : G1} {Q : G2} (he : a * S.pair P Q = b * S.pair P Q) : a = b := by
  have := congrArg (· * S.pair (-P) Q) he
  simpa only [mul_assoc, h.neg_left, mul_one] using this

theorem mul_neg_eq_one_iff (h : PairLaws S) {a : K} {P : G1} {Q : G2} : a * S.pair (-P) Q = 1 ↔ a = S.pair P Q := by
  constructor
  · intro he
    have := congrArg (· * S.pair P Q) he
    simpa only [mul_assoc, h.neg_left', mul_one, one_mul] using this
  · rintro rfl; exact h.neg_left P Q

theorem nsmul_left (h : PairLaws S) (n : ℕ) (P : G1) (Q : G2) : S.pair (n • P) Q = S.pair P Q ^ n := by
  induction n with
  | zero => simp [h.zero_left]
  | succ n ih => rw [succ_nsmul, h.add_left, ih, pow_succ]

theorem nsmul_right (h : PairLaws S) (n : ℕ) (P : G1) (Q : G2) : S.pair P (n • Q) = S.pair P Q ^ n := by
  induction n with
  | zero => simp [h.zero_right]
  | succ n ih => rw [succ_nsmul, h.add_right, ih, pow_succ]

/-- Bilinearity: a scalar can be moved from one side to the other. -/
theorem smul_comm (h : PairLaws S) (a : ZMod r) (P : G1) (Q : G2) : S.pair (a • P) Q = S.pair P (a • Q) := by
  rw [← mulRepr_eq_smul, ← mulRepr_eq_smul, mulRepr, mulRepr, h.nsmul_left, h.nsmul_right]

theorem left_inj (h : PairLaws S) {P P' : G1} {Q : G2} (hQ : Q ≠ 0) (he : S.pair P Q = S.pair P' Q) : P = P' := by
  have : S.pair (P + -P') Q = 1 := by rw [h.add_left, he, h.neg_left]
  rcases h.nondeg _ _ this with h0 | h0
  · rw [← sub_eq_add_neg, sub_eq_zero] at h0; exact h0
  · exact absurd h0 hQ

theorem right_inj (h : PairLaws S) {P : G1} {Q Q' : G2} (hP : P ≠ 0) (he : S.pair P Q = S.pair P Q') : Q = Q' := by
  have h1 : S.pair P Q' * S.pair P (-Q') = 1 := by rw [← h.add_right, add_neg_cancel, h.zero_right]
  have : S.pair P (Q + -Q') = 1 := by rw [h.add_right, he, h1]
  rcases h.nondeg _ _ this with h0 | h0
  · exact absurd h0 hP
  · rw [← sub_eq_add_neg, sub_eq_zero] at h0; exact h0

theorem sum_left (h : PairLaws S) {ι : Type} (l : List ι) (f : ι → G1) (Q : G2) :
    S.pair (l.map f).sum Q = (l.map fun i => S.pair (f i) Q).prod := by
  induction l with
  | nil => simp [h.zero_left]
  | cons a l ih => simp [h.add_left, ih]

end PairLaws
end Verif
