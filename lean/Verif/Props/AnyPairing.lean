import Verif.Props.Bls
import Verif.Props.Weights

/-!
# The pairing does not matter: C119

The only thing about `E::pairing` that the crate uses are tests whether a product of pairings is one (aggregator.rs:116-124, 187-203).
For groups of prime order the answer is the same for every non-degenerate bilinear map.
-/

open Finset

set_option linter.unusedSectionVars false

namespace Verif

variable {r : ℕ} [Fact r.Prime] {G1 G2 K K' : Type}
  [AddCommGroup G1] [DecidableEq G1] [AddCommGroup G2] [DecidableEq G2] [CommMonoid K] [DecidableEq K] [CommMonoid K'] [DecidableEq K']
  [Module (ZMod r) G1] [Module (ZMod r) G2]

/-- The same suite with another pairing. -/
def Spec.otherPair (S : Suite r G1 G2 K) (pair : G1 → G2 → K') : Suite r G1 G2 K' := ⟨S.c1, S.c2, S.frC, S.hash, pair, S.shake, S.ed⟩

/-- **C119** (meaning). If the second arguments are written as multiples `c_i g` of a point `g ≠ 0`, a product of pairings is one exactly if
the sum of the `c_i P_i` is zero; two products agree exactly if the two sums do. -/
theorem C119_meaning (S : Suite r G1 G2 K) (hS : PairLaws S) (g : G2) (hg : g ≠ 0) (l l' : List (G1 × ZMod r)) :
    (prodPairings S (l.map fun e => (e.1, e.2 • g)) = 1 ↔ (l.map fun e => e.2 • e.1).sum = 0) ∧
    (prodPairings S (l.map fun e => (e.1, e.2 • g)) = prodPairings S (l'.map fun e => (e.1, e.2 • g)) ↔
      (l.map fun e => e.2 • e.1).sum = (l'.map fun e => e.2 • e.1).sum) := by
  have key : ∀ l : List (G1 × ZMod r), prodPairings S (l.map fun e => (e.1, e.2 • g)) = S.pair (l.map fun e => e.2 • e.1).sum g := by
    intro l
    unfold prodPairings
    rw [List.map_map, hS.sum_left]
    congr 1
    exact List.map_congr_left fun e _ => (hS.smul_comm e.2 e.1 g).symm
  rw [key, key]
  refine ⟨⟨fun h => ?_, fun h => by rw [h, hS.zero_left]⟩, ⟨fun h => hS.left_inj hg h, fun h => by rw [h]⟩⟩
  exact (hS.nondeg _ _ h).resolve_right hg

/-- **C119** (products). All pairings agree on which products of pairings are one, and on which are equal. -/
theorem C119_products (S : Suite r G1 G2 K) (S' : Suite r G1 G2 K') (hS : PairLaws S) (hS' : PairLaws S') (hc : CyclicGroup r G2)
    (l l' : List (G1 × G2)) :
    (prodPairings S l = 1 ↔ prodPairings S' l = 1) ∧ (prodPairings S l = prodPairings S l' ↔ prodPairings S' l = prodPairings S' l') := by
  by_cases h0 : ∃ g : G2, g ≠ 0
  · obtain ⟨g, hg⟩ := h0
    choose c hc using fun Q => hc g Q hg
    have e : ∀ l : List (G1 × G2), l = (l.map fun e => (e.1, c e.2)).map fun e => (e.1, e.2 • g) := by
      intro l
      rw [List.map_map]
      symm
      exact (List.map_congr_left fun e _ => by simp only [Function.comp, ← hc]; rfl).trans (List.map_id l)
    rw [e l, e l']
    obtain ⟨h1, h2⟩ := C119_meaning S hS g hg (l.map fun e => (e.1, c e.2)) (l'.map fun e => (e.1, c e.2))
    obtain ⟨h1', h2'⟩ := C119_meaning S' hS' g hg (l.map fun e => (e.1, c e.2)) (l'.map fun e => (e.1, c e.2))
    exact ⟨h1.trans h1'.symm, h2.trans h2'.symm⟩
  · push Not at h0
    have one : ∀ {K : Type} [CommMonoid K] (S : Suite r G1 G2 K), PairLaws S → ∀ l, prodPairings S l = 1 := by
      intro K _ S hS l
      unfold prodPairings
      refine List.prod_eq_one fun x hx => ?_
      obtain ⟨p, -, rfl⟩ := List.mem_map.1 hx
      rw [h0 p.2, hS.zero_right]
    rw [one S hS, one S hS, one S' hS', one S' hS']
    simp

/-- **C119** (calls). Every verification, every call to an aggregator and every history of calls has the same outcome and leaves the same
state with every pairing; dealing does not use it. -/
theorem C119 (S : Suite r G1 G2 K) (pair : G1 → G2 → K') (hS : PairLaws S) (hS' : PairLaws (Spec.otherPair S pair)) (hc : CyclicGroup r G2)
    (m : Mode) (a : Aggregator r G1 G2) :
    (∀ rng sh, a.shareVerify S m rng sh = a.shareVerify (Spec.otherPair S pair) m rng sh) ∧
    (∀ rng ag, a.aggregationVerify S m rng ag = a.aggregationVerify (Spec.otherPair S pair) m rng ag) ∧
    (∀ op, a.step S m op = a.step (Spec.otherPair S pair) m op) ∧
    (∀ ops, a.run S m ops = a.run (Spec.otherPair S pair) m ops) ∧
    ∀ (nd : Node r G1 G2) rng, nd.share S m rng = nd.share (Spec.otherPair S pair) m rng := by
  have hp : ∀ l, (prodPairings S l = 1) = (prodPairings (Spec.otherPair S pair) l = 1) := fun l =>
    propext (C119_products S _ hS hS' hc l l).1
  have h1 : ∀ (a : Aggregator r G1 G2) rng sh, a.shareVerify S m rng sh = a.shareVerify (Spec.otherPair S pair) m rng sh := by
    intro a rng sh
    unfold Aggregator.shareVerify
    simp only [ne_eq, hp]
    rfl
  have h2 : ∀ (a : Aggregator r G1 G2) rng ag, a.aggregationVerify S m rng ag = a.aggregationVerify (Spec.otherPair S pair) m rng ag := by
    intro a rng ag
    unfold Aggregator.aggregationVerify
    simp only [ne_eq, hp]
    rfl
  have h3 : ∀ (a : Aggregator r G1 G2) op, a.step S m op = a.step (Spec.otherPair S pair) m op := by
    intro a op
    cases op with
    | share rng sh =>
      show a.receiveShare S m rng sh = a.receiveShare _ m rng sh
      unfold Aggregator.receiveShare
      rw [h1]
    | agg rng ag =>
      show a.receiveAggregatedShare S m rng ag = a.receiveAggregatedShare _ m rng ag
      unfold Aggregator.receiveAggregatedShare
      rw [h2]
  refine ⟨h1 a, h2 a, h3 a, fun ops => ?_, fun nd rng => rfl⟩
  induction ops generalizing a with
  | nil => rfl
  | cons op ops ih =>
    show (a.step S m op).2.run S m ops = (a.step _ m op).2.run _ m ops
    rw [h3, ih]

/-- **C119** (values). The values of one pairing are a copy of those of any other: there is a map that takes each product of pairings to the
product of the same points under the other pairing, respects multiplication, and is one to one on these values. What is recovered in the
target group is thus the same up to this renaming. -/
theorem C119_values (S : Suite r G1 G2 K) (S' : Suite r G1 G2 K') (hS : PairLaws S) (hS' : PairLaws S') (hc : CyclicGroup r G2) :
    ∃ φ : K → K', (∀ P Q, φ (S.pair P Q) = S'.pair P Q) ∧ (∀ l, φ (prodPairings S l) = prodPairings S' l) ∧
      (∀ l l', φ (prodPairings S l * prodPairings S l') = φ (prodPairings S l) * φ (prodPairings S l')) ∧
      ∀ l l', φ (prodPairings S l) = φ (prodPairings S l') → prodPairings S l = prodPairings S l' := by
  classical
  let φ : K → K' := fun x => if h : ∃ l, prodPairings S l = x then prodPairings S' h.choose else 1
  have hφ : ∀ l, φ (prodPairings S l) = prodPairings S' l := by
    intro l
    have h : ∃ l', prodPairings S l' = prodPairings S l := ⟨l, rfl⟩
    have e : φ (prodPairings S l) = prodPairings S' h.choose := dif_pos h
    rw [e]
    exact (C119_products S S' hS hS' hc _ _).2.1 h.choose_spec
  have one : ∀ {K : Type} [CommMonoid K] (S : Suite r G1 G2 K) P Q, prodPairings S [(P, Q)] = S.pair P Q := by
    intro K _ S P Q
    simp [prodPairings]
  have app : ∀ {K : Type} [CommMonoid K] (S : Suite r G1 G2 K) l l', prodPairings S (l ++ l') = prodPairings S l * prodPairings S l' := by
    intro K _ S l l'
    simp [prodPairings]
  refine ⟨φ, fun P Q => by rw [← one, hφ, one], hφ, fun l l' => by rw [← app, hφ, hφ, hφ, app], fun l l' h => ?_⟩
  rw [hφ, hφ] at h
  exact (C119_products S S' hS hS' hc _ _).2.2 h

/-- **C119** (BLS12-381). There is one pairing on the two groups of the curve such that with every other map that is additive in both
arguments, takes values in the units and is not trivial on the generators, all verifications, calls and histories are as with this one. So
which of them `E::pairing` computes does not matter. -/
theorem C119_bls (stream : List UInt8 → List UInt8 → ℕ → UInt8) (shake : List UInt8 → Bytes 32) (ed : EdOps) :
    ∃ pair0 : BlsG1 → BlsG2 → Multiplicative (ZMod blsR), PairLaws (arkSuite pair0 stream shake ed) ∧
    ∀ (K : Type) [CommMonoid K] [DecidableEq K] (pair : BlsG1 → BlsG2 → K), (∀ P P' Q, pair (P + P') Q = pair P Q * pair P' Q) →
      (∀ P Q Q', pair P (Q + Q') = pair P Q * pair P Q') → (∀ P Q, IsUnit (pair P Q)) → pair blsG1 blsG2 ≠ 1 →
      ∀ (m : Mode) (a : Aggregator blsR BlsG1 BlsG2),
        (∀ rng sh, a.shareVerify (arkSuite pair stream shake ed) m rng sh = a.shareVerify (arkSuite pair0 stream shake ed) m rng sh) ∧
        (∀ rng ag, a.aggregationVerify (arkSuite pair stream shake ed) m rng ag =
          a.aggregationVerify (arkSuite pair0 stream shake ed) m rng ag) ∧
        (∀ op, a.step (arkSuite pair stream shake ed) m op = a.step (arkSuite pair0 stream shake ed) m op) ∧
        ∀ ops, a.run (arkSuite pair stream shake ed) m ops = a.run (arkSuite pair0 stream shake ed) m ops := by
  obtain ⟨pair0, h1, h2, h3⟩ := C96_pair_exists
  have hp0 := C96_pair stream shake ed pair0 h1 h2 (fun P Q => Group.isUnit _) h3
  refine ⟨pair0, hp0, fun K _ _ pair hl hr hu hg m a => ?_⟩
  obtain ⟨q1, q2, q3, q4, -⟩ := C119 (arkSuite pair stream shake ed) pair0 (C96_pair stream shake ed pair hl hr hu hg) hp0
    C96_groups.2.2.2.2.2.1 m a
  exact ⟨q1, q2, q3, q4⟩

/-! ### Concrete cases -/

/-- Another pairing of the concrete groups, with values elsewhere. -/
def Toy.pair5 (P Q : ZMod 13) : Multiplicative (ZMod 13 × ZMod 13) := Multiplicative.ofAdd (5 * P * Q, 0)

theorem Toy.pair5_laws : PairLaws (Spec.otherPair (Toy.suite 13) Toy.pair5) where
  add_left P P' Q := congrArg Multiplicative.ofAdd (Prod.ext (by show 5 * (P + P') * Q = 5 * P * Q + 5 * P' * Q; ring) (add_zero 0).symm)
  add_right P Q Q' := congrArg Multiplicative.ofAdd (Prod.ext (by show 5 * P * (Q + Q') = 5 * P * Q + 5 * P * Q'; ring) (add_zero 0).symm)
  zero_left Q := congrArg Multiplicative.ofAdd (Prod.ext (by simp) rfl)
  zero_right P := congrArg Multiplicative.ofAdd (Prod.ext (by simp) rfl)
  nondeg P Q h := by
    have h0 : 5 * P * Q = 0 := congrArg Prod.fst h
    rcases mul_eq_zero.1 h0 with h0 | h0
    · exact Or.inl ((mul_eq_zero.1 h0).resolve_left (by decide))
    · exact Or.inr h0

/-- A share accepted with one pairing is accepted with the other; without non-degeneracy this fails (the constant map accepts a product of
pairings that is not one). -/
example (m : Mode) (rng : Rng 13) : (∃ sh rng', sh.core = Toy.core52 ∧
      Toy.agg.shareVerify (Spec.otherPair (Toy.suite 13) Toy.pair5) m rng sh = .ok rng') ∧
    prodPairings (Spec.otherPair (Toy.suite 13) Toy.pair5) [(2, 3), (1, 7)] = 1 ∧
    prodPairings (Spec.otherPair (Toy.suite 13) Toy.pair5) [(2, 3), (1, 6)] ≠ 1 ∧
    prodPairings (Spec.otherPair (Toy.suite 13) fun _ _ => (1 : Multiplicative (ZMod 13))) [(2, 3), (1, 6)] = 1 := by
  refine ⟨?_, by decide, by decide, by decide⟩
  obtain ⟨sh, p, hg, -, hcore, -⟩ := Toy.gs_ne
  obtain ⟨rng', h⟩ := shareVerify_good (Toy.suite 13) (Toy.pairLaws 13) m Toy.agg rng sh p hg (by decide) (by decide) (Or.inl (by decide))
  refine ⟨sh, rng', hcore, ?_⟩
  rw [← (C119 (Toy.suite 13) Toy.pair5 (Toy.pairLaws 13) Toy.pair5_laws (Toy.cyclic 13) m Toy.agg).1]
  exact h

end Verif
