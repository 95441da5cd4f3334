import Verif.Model.Hash
import Verif.Model.Laws
import Verif.Lemmas.Basic

/-! Lemmas on `firstSome` and `hashToField`. -/

namespace Verif

variable {ε α : Type}

theorem firstSome_cases (f : ℕ → Option α) :
    (∃ k a, f k = some a ∧ (∀ j < k, f j = none) ∧ (firstSome f : Res ε α) = .ok a) ∨
    ((∀ k, f k = none) ∧ (firstSome f : Res ε α) = .diverge) := by
  classical
  unfold firstSome
  split
  · rename_i h
    left
    refine ⟨Nat.find h, (f (Nat.find h)).get (Nat.find_spec h), by simp, ?_, ?_⟩
    · intro j hj
      have := Nat.find_min h hj
      simpa using this
    · congr
  · rename_i h
    right
    refine ⟨fun k => ?_, rfl⟩
    push Not at h
    simpa using h k

theorem firstSome_ne_err (f : ℕ → Option α) (e : ε) : (firstSome f : Res ε α) ≠ .err e := by
  rcases firstSome_cases (ε := ε) f with ⟨k, a, _, _, h⟩ | ⟨_, h⟩ <;> rw [h] <;> simp

theorem firstSome_ne_panic (f : ℕ → Option α) : (firstSome f : Res ε α) ≠ .panic := by
  rcases firstSome_cases (ε := ε) f with ⟨k, a, _, _, h⟩ | ⟨_, h⟩ <;> rw [h] <;> simp

variable {r : ℕ} [Fact r.Prime]

omit [Fact r.Prime] in
theorem hashToField_ne_err (H : HashEnv r) (p m : List UInt8) (e : ε) : (hashToField H p m : Res ε _) ≠ .err e := by
  unfold hashToField
  split
  · simp
  · exact firstSome_ne_err _ _

omit [Fact r.Prime] in
theorem hashToField_ne_panic (H : HashEnv r) {p : List UInt8} (hp : p.length ≤ 8) (m : List UInt8) :
    (hashToField H p m : Res ε _) ≠ .panic := by
  unfold hashToField
  rw [if_neg (by omega)]
  exact firstSome_ne_panic _

omit [Fact r.Prime] in
theorem hashToField_total {H : HashEnv r} (hH : HashTotal H) {p : List UInt8} (hp : p.length ≤ 8) (m : List UInt8) :
    ∃ c, (hashToField H p m : Res ε _) = .ok c := by
  unfold hashToField
  rw [if_neg (by omega)]
  rcases firstSome_cases (ε := ε) (fun k => H.frFromRandom (block (H.stream (padPersona p) m) H.frSize k))
    with ⟨k, a, _, _, h⟩ | ⟨h, _⟩
  · exact ⟨a, h⟩
  · obtain ⟨k, hk⟩ := hH (padPersona p) m
    rw [h k] at hk
    cases hk

end Verif
