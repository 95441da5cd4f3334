import Verif.Lemmas.Verify
import Verif.Lemmas.Aggregate

/-! Termination of the verification functions. -/

namespace Verif

set_option linter.unusedSectionVars false

section
variable {ε ε' α β σ : Type}

/-- The call terminates. -/
def Res.Halts (x : Res ε α) : Prop := x ≠ .diverge

theorem Res.Halts.bind {x : Res ε α} {f : α → Res ε β} (hx : x.Halts) (hf : ∀ a, x = .ok a → (f a).Halts) :
    (x >>= f).Halts := by
  cases x with
  | ok a => exact hf a rfl
  | err e => intro h; cases h
  | panic => intro h; cases h
  | diverge => exact absurd rfl hx

theorem Res.Total.halts {x : Res ε α} (h : x.Total) : x.Halts := by
  rcases h with rfl | ⟨a, rfl⟩ <;> intro h <;> cases h

theorem Res.Halts.ok (a : α) : (Res.ok a : Res ε α).Halts := by intro h; cases h
theorem Res.Halts.err (e : ε) : (Res.err e : Res ε α).Halts := by intro h; cases h
theorem Res.Halts.panic : (Res.panic : Res ε α).Halts := by intro h; cases h

theorem Res.Halts.unwrap {x : Res ε α} (h : x.Halts) : (x.unwrap : Res ε' α).Halts := by
  cases x with
  | diverge => exact absurd rfl h
  | _ => intro h; cases h

theorem Res.Halts.orErr {x : Res ε α} (h : x.Halts) (e : ε') : (x.orErr e).Halts := by
  cases x with
  | diverge => exact absurd rfl h
  | _ => intro h; cases h

theorem loop_halts {f : σ → α → Res ε σ} (h : ∀ s x, (f s x).Halts) (s : σ) (l : List α) : (loop f s l).Halts := by
  induction l generalizing s with
  | nil => exact .ok s
  | cons x xs ih =>
    rw [loop_cons]
    exact (h s x).bind fun s' _ => ih s'

end

section
variable {r : ℕ} [Fact r.Prime] {G1 G2 K : Type}
  [AddCommGroup G1] [DecidableEq G1] [AddCommGroup G2] [DecidableEq G2] [CommMonoid K] [DecidableEq K]
  [Module (ZMod r) G1] [Module (ZMod r) G2]

theorem addU64_total {ε : Type} (m : Mode) (a b : ℕ) : (addU64 m a b : Res ε ℕ).Total := by
  unfold addU64
  split
  · exact .ok _
  · cases m
    · exact .panic
    · exact .ok _
    · exact .ok _

theorem lagrangeSimple_halts (m : Mode) (evs : List G2) (t : ℕ) : (lagrangeSimple (r := r) m evs t).Halts := by
  unfold lagrangeSimple
  refine (addU64_total m t 1).halts.bind fun need _ => ?_
  split
  · exact .err _
  refine loop_halts (fun s j => ?_) _ _
  refine Res.Halts.bind ?_ fun _ _ => (idx_total _ _).halts.bind fun _ _ => .ok _
  have hnode : ∀ k, (nodeSimple m k : Res PVSSError (ZMod r)).Halts := fun k =>
    ((addU64_total _ _ _).bind fun _ => .ok _).halts
  unfold lagCoeff
  refine (hnode j).bind fun xj _ => loop_halts (fun s k => ?_) _ _
  split
  · exact (hnode k).bind fun x _ => ((invUnwrap_total _).bind fun _ => .ok _).halts
  · exact .ok _

theorem ensureDegree_halts (m : Mode) (rng : Rng r) (evs : List G2) (t : ℕ) : (ensureDegree m rng evs t).Halts := by
  by_cases h : evs.length < t
  · unfold ensureDegree
    rw [if_pos h]
    exact .err _
  · rcases ensureDegree_cases m rng evs h with ⟨a, h'⟩ | h' | h' <;> rw [h'] <;> intro h <;> cases h

theorem shareVerify_halts (S : Suite r G1 G2 K) (hH : HashTotal S.hash) (m : Mode) (a : Aggregator r G1 G2) (rng : Rng r)
    (sh : PVSSShare r G1 G2) : (a.shareVerify S m rng sh).Halts := by
  unfold Aggregator.shareVerify
  simp only
  refine Res.Halts.bind ?_ fun q _ => (idx_total _ _).halts.bind fun _ _ => (idx_total _ _).halts.bind fun _ _ => ?_
  · cases a.participants.get sh.participantId
    · exact .err _
    · exact .ok _
  split
  · exact .err _
  refine Res.Halts.bind ?_ fun _ _ => Res.Halts.bind ?_ fun _ _ => .ok _
  · unfold Aggregator.coreVerify
    split
    · exact .err _
    refine ((ensureDegree_halts m _ _ _).orErr _).bind fun _ _ => (lagrangeSimple_halts m _ _).unwrap.bind fun _ _ => ?_
    split
    · exact .err _
    · exact .ok _
  · exact Res.Halts.orErr (signedVerify_ne_diverge S hH _ _ _) _

theorem aggregationVerify_halts (S : Suite r G1 G2 K) (hH : HashTotal S.hash) (m : Mode) (a : Aggregator r G1 G2)
    (rng : Rng r) (ag : AggShare r G1 G2) : (a.aggregationVerify S m rng ag).Halts := by
  unfold Aggregator.aggregationVerify
  simp only
  split
  · exact .err _
  refine ((ensureDegree_halts m _ _ _).orErr _).bind fun rng1 _ => Res.Halts.bind ?_ fun x _ => ?_
  · refine loop_halts (fun s i => ?_) _ _
    unfold Aggregator.pairStep
    refine (idx_total _ _).halts.bind fun _ _ => (idx_total _ _).halts.bind fun _ _ => Res.Halts.bind ?_ fun _ _ =>
      (idx_total _ _).halts.bind fun _ _ => .ok _
    cases a.participants.get i
    · exact .panic
    · exact .ok _
  · split
    · exact .err _
    refine (lagrangeSimple_halts m _ _).unwrap.bind fun _ _ => Res.Halts.bind ?_ fun _ _ => ?_
    · refine loop_halts (fun s e => ?_) _ _
      unfold Aggregator.contribStep
      refine Res.Halts.bind ?_ fun _ _ => Res.Halts.bind (Res.Halts.orErr (signedVerify_ne_diverge S hH _ _ _) _) fun _ _ => .ok _
      cases a.participants.get e.1
      · exact .panic
      · exact .ok _
    · split
      · exact .err _
      · exact .ok _

end
end Verif
