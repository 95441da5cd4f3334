import Verif.Lemmas.BMap
import Verif.Lemmas.Basic
import Mathlib.Algebra.BigOperators.Group.Finset.Basic
import Mathlib.Algebra.BigOperators.Group.Finset.Piecewise

/-! Aggregation of transcripts in pointwise form. -/

open Finset

namespace Verif

set_option linter.unusedSectionVars false

section weights
variable {ε : Type}

theorem addWeight_checked_iff {a b w : UInt64} :
    (addWeight .checked a b : Res ε _) = .ok w ↔ a.toNat + b.toNat < 2 ^ 64 ∧ w = a + b := by
  unfold addWeight
  split <;> simp_all [eq_comm]

theorem addWeight_noOverflow (m : Mode) {a b : UInt64} (h : a.toNat + b.toNat < 2 ^ 64) :
    (addWeight m a b : Res ε _) = .ok (a + b) := by
  unfold addWeight
  rw [if_pos h]

theorem addWeight_overflow_checked {a b : UInt64} (h : 2 ^ 64 ≤ a.toNat + b.toNat) :
    (addWeight .checked a b : Res ε _) = .panic := by
  unfold addWeight
  rw [if_neg (by omega)]

theorem addWeight_unchecked {m : Mode} (hm : m ≠ .checked) (a b : UInt64) : (addWeight m a b : Res ε _) = .ok (a + b) := by
  unfold addWeight
  split
  · rfl
  · cases m <;> simp_all

theorem addWeight_ok_eq {m : Mode} {a b w : UInt64} (h : (addWeight m a b : Res ε _) = .ok w) : w = a + b := by
  unfold addWeight at h
  split at h
  · exact (Res.ok.inj h).symm
  · cases m <;> simp_all

theorem addWeight_ne_err {m : Mode} {a b : UInt64} {e : ε} : (addWeight m a b : Res ε _) ≠ .err e := by
  unfold addWeight
  split
  · simp
  · cases m <;> simp

theorem addWeight_ne_diverge {m : Mode} {a b : UInt64} : (addWeight m a b : Res ε _) ≠ .diverge := by
  unfold addWeight
  split
  · simp
  · cases m <;> simp

theorem toNat_add_of_lt {a b : UInt64} (h : a.toNat + b.toNat < 2 ^ 64) : (a + b).toNat = a.toNat + b.toNat := by
  rw [UInt64.toNat_add, Nat.mod_eq_of_lt h]

theorem addWeight_comm (m : Mode) (a b : UInt64) : (addWeight m a b : Res ε _) = addWeight m b a := by
  unfold addWeight
  rw [UInt64.add_comm, Nat.add_comm]

theorem addWeight_assoc (m : Mode) (a b c w : UInt64) :
    ((addWeight m a b : Res ε _) >>= fun u => addWeight m u c) = .ok w ↔
      ((addWeight m b c : Res ε _) >>= fun u => addWeight m a u) = .ok w := by
  by_cases hm : m = .checked
  · subst hm
    simp only [Res.bind_eq_ok, addWeight_checked_iff]
    constructor
    · rintro ⟨u, ⟨h1, rfl⟩, h2, rfl⟩
      rw [toNat_add_of_lt h1] at h2
      refine ⟨b + c, ⟨by omega, rfl⟩, ?_, UInt64.add_assoc _ _ _⟩
      rw [toNat_add_of_lt (by omega)]; omega
    · rintro ⟨u, ⟨h1, rfl⟩, h2, rfl⟩
      rw [toNat_add_of_lt h1] at h2
      refine ⟨a + b, ⟨by omega, rfl⟩, ?_, (UInt64.add_assoc _ _ _).symm⟩
      rw [toNat_add_of_lt (by omega)]; omega
  · simp only [addWeight_unchecked hm, Res.bind_ok', UInt64.add_assoc]

end weights

section
variable {r : ℕ} [Fact r.Prime] {G1 G2 : Type}
  [AddCommGroup G1] [DecidableEq G1] [AddCommGroup G2] [DecidableEq G2]

/-- The merge of two optional entries. -/
def mergeVal (m : Mode) (x y : Option (SignedProof r G2 × UInt64)) :
    Res PVSSError (Option (SignedProof r G2 × UInt64)) :=
  match x, y with
  | some (x, w1), some (y, w2) =>
    if x.decompProof.gs ≠ y.decompProof.gs then .err .TranscriptDifferentCommitments
    else do
      let w ← addWeight m w1 w2
      .ok (some (x, w))
  | some v, none => .ok (some v)
  | none, some v => .ok (some v)
  | none, none => .ok none

theorem mergeAt_eq (m : Mode) (a b : BMap (SignedProof r G2 × UInt64)) (i : ℕ) :
    mergeAt m a b i = (mergeVal m (a.get i) (b.get i) >>= fun v => .ok (v.map fun u => (i, u))) := by
  unfold mergeAt mergeVal
  cases a.get i with
  | none => cases b.get i <;> rfl
  | some x =>
    cases b.get i with
    | none => rfl
    | some y =>
      simp only
      split
      · rfl
      · cases addWeight m x.2 y.2 <;> rfl

@[simp] theorem mergeVal_none_right (m : Mode) (x : Option (SignedProof r G2 × UInt64)) : mergeVal m x none = .ok x := by
  cases x <;> rfl

@[simp] theorem mergeVal_none_left (m : Mode) (x : Option (SignedProof r G2 × UInt64)) : mergeVal m none x = .ok x := by
  cases x <;> rfl

theorem mergeVal_some_ok_iff (m : Mode) (x y : SignedProof r G2) (w1 w2 : UInt64) (v : Option (SignedProof r G2 × UInt64)) :
    mergeVal m (some (x, w1)) (some (y, w2)) = .ok v ↔
      x.decompProof.gs = y.decompProof.gs ∧ ∃ w, (addWeight m w1 w2 : Res PVSSError _) = .ok w ∧ v = some (x, w) := by
  simp only [mergeVal]
  split
  · rename_i h; simp [h]
  · rename_i h
    rw [not_not] at h
    rw [Res.bind_eq_ok]
    constructor
    · rintro ⟨w, hw, hv⟩; exact ⟨h, w, hw, (Res.ok.inj hv).symm⟩
    · rintro ⟨-, w, hw, rfl⟩; exact ⟨w, hw, rfl⟩

theorem mergeVal_err {m : Mode} {x y : Option (SignedProof r G2 × UInt64)} {e : PVSSError}
    (h : mergeVal m x y = .err e) : e = .TranscriptDifferentCommitments := by
  unfold mergeVal at h
  split at h
  · split at h
    · exact (Res.err.inj h).symm
    · rw [Res.bind_eq_err] at h
      rcases h with h | ⟨_, _, h⟩
      · exact absurd h addWeight_ne_err
      · cases h
  all_goals cases h

theorem mergeVal_ne_diverge {m : Mode} {x y : Option (SignedProof r G2 × UInt64)} :
    mergeVal m x y ≠ .diverge := by
  unfold mergeVal
  split
  · rename_i w1 _ w2
    split
    · simp
    · have := addWeight_ne_diverge (ε := PVSSError) (m := m) (a := w1) (b := w2)
      revert this
      cases (addWeight m w1 w2 : Res PVSSError _) <;> simp
  all_goals simp

/-- The list collected by `aggregate` for entries `v`. -/
theorem get_collected {V : Type} (v : ℕ → Option V) (n k : ℕ) :
    (BMap.ofList (((List.range n).map fun i => (v i).map fun u => (i, u)).filterMap id)).get k =
      if k < n then v k else none := by
  have hnd : ((((List.range n).map fun i => (v i).map fun u => (i, u)).filterMap id).map Prod.fst).Nodup := by
    have : ((((List.range n).map fun i => (v i).map fun u => (i, u)).filterMap id).map Prod.fst).Sublist (List.range n) := by
      generalize List.range n = l
      induction l with
      | nil => simp
      | cons x xs ih =>
        cases hx : v x with
        | none => simpa [hx] using ih.trans (List.sublist_cons_self _ _)
        | some u => simpa [hx] using ih
    exact List.nodup_range.sublist this
  rw [BMap.get_ofList_nodup hnd]
  have hmem : ∀ u, (k, u) ∈ ((List.range n).map fun i => (v i).map fun u => (i, u)).filterMap id ↔
      k < n ∧ v k = some u := by
    intro u
    simp only [List.mem_filterMap, List.mem_map, List.mem_range, id_eq]
    constructor
    · rintro ⟨o, ⟨i, hi, rfl⟩, h⟩
      cases hv : v i with
      | none => simp [hv] at h
      | some u' =>
        simp only [hv, Option.map_some, Option.some.injEq, Prod.mk.injEq] at h
        obtain ⟨rfl, rfl⟩ := h
        exact ⟨hi, hv⟩
    · rintro ⟨hk, hv⟩
      exact ⟨_, ⟨k, hk, rfl⟩, by simp [hv]⟩
  cases h : BMap.lookupL k (((List.range n).map fun i => (v i).map fun u => (i, u)).filterMap id) with
  | some u =>
    obtain ⟨h1, h2⟩ := (hmem u).1 (BMap.lookupL_eq_some_mem h)
    rw [if_pos h1, h2]
  | none =>
    split
    · rename_i hk
      cases hv : v k with
      | none => rfl
      | some u =>
        rw [BMap.lookupL_eq_some_of_nodup hnd ((hmem u).2 ⟨hk, hv⟩)] at h
        cases h
    · rfl

theorem coreAggregate_iff (a b c : PVSSCore G1 G2) :
    a.aggregate b = .ok c ↔ a.comms ≠ [] ∧ a.comms.length = b.comms.length ∧ a.encs.length = b.encs.length ∧
      a.comms.length = a.encs.length ∧
      c.encs = (a.encs.zip b.encs).map (fun e => e.1 + e.2) ∧ c.comms = (a.comms.zip b.comms).map fun e => e.1 + e.2 := by
  unfold PVSSCore.aggregate
  split
  · rename_i h
    rw [List.isEmpty_iff] at h
    simp [h]
  rename_i h0
  rw [List.isEmpty_iff] at h0
  split
  · rename_i h; simp [h]
  rename_i h1
  split
  · rename_i h; simp [h]
  rename_i h2
  split
  · rename_i h; simp [h]
  rename_i h3
  rw [not_not] at h1 h2 h3
  simp only [Res.ok.injEq, ne_eq, h0, not_false_eq_true, h1, h2, true_and]
  constructor
  · rintro rfl; exact ⟨by rw [← h1, h3, h2], rfl, rfl⟩
  · rintro ⟨-, h4, h5⟩; cases c; simp_all

theorem coreAggregate_cases (a b : PVSSCore G1 G2) :
    (∃ c, a.aggregate b = .ok c) ∨ ∃ e, a.aggregate b = .err e := by
  unfold PVSSCore.aggregate
  repeat' split
  all_goals first | exact Or.inl ⟨_, rfl⟩ | exact Or.inr ⟨_, rfl⟩

/-- `aggregate`, pointwise. -/
theorem aggregate_iff (m : Mode) (a b c : AggShare r G1 G2) :
    a.aggregate m b = .ok c ↔ a.degree = b.degree ∧ a.numParticipants = b.numParticipants ∧
      c.degree = a.degree ∧ c.numParticipants = a.numParticipants ∧ a.core.aggregate b.core = .ok c.core ∧
      (∀ i < a.numParticipants, mergeVal m (a.contributions.get i) (b.contributions.get i) = .ok (c.contributions.get i)) ∧
      ∀ i, a.numParticipants ≤ i → c.contributions.get i = none := by
  unfold AggShare.aggregate
  split
  · rename_i h
    constructor
    · intro h'; cases h'
    · rintro ⟨h1, h2, -⟩
      rcases h with h | h
      · exact absurd h1 h
      · exact absurd h2 h
  rename_i h
  push Not at h
  rw [Res.bind_eq_ok]
  constructor
  · rintro ⟨ys, h1, h2⟩
    rw [Res.bind_eq_ok] at h2
    obtain ⟨core, h3, h4⟩ := h2
    rw [Res.unwrap_eq_ok] at h3
    cases h4
    have hv : ∀ i, ∃ v, i < a.numParticipants →
        mergeVal m (a.contributions.get i) (b.contributions.get i) = .ok v := by
      intro i
      by_cases hi : i < a.numParticipants
      · obtain ⟨y, hy⟩ := collect_eq_ok_mem h1 i (by simpa using hi)
        rw [mergeAt_eq, Res.bind_eq_ok] at hy
        obtain ⟨v, hv, -⟩ := hy
        exact ⟨v, fun _ => hv⟩
      · exact ⟨none, fun h => absurd h hi⟩
    choose v hv using hv
    rw [collect_eq_map (g := fun i => (v i).map fun u => (i, u))] at h1
    swap
    · intro i hi
      rw [mergeAt_eq, hv i (by simpa using hi), Res.bind_ok']
    cases h1
    refine ⟨h.1, h.2, rfl, rfl, h3, fun i hi => ?_, fun i hi => ?_⟩
    · simp only
      rw [get_collected, if_pos hi, hv i hi]
    · simp only
      rw [get_collected, if_neg (by omega)]
  · rintro ⟨-, -, h1, h2, h3, h4, h5⟩
    refine ⟨(List.range a.numParticipants).map fun i => (c.contributions.get i).map fun u => (i, u), ?_, ?_⟩
    · refine collect_eq_map fun i hi => ?_
      rw [mergeAt_eq, h4 i (by simpa using hi), Res.bind_ok']
    · rw [h3, Res.unwrap_ok, Res.bind_ok']
      have : BMap.ofList (((List.range a.numParticipants).map fun i => (c.contributions.get i).map fun u => (i, u)).filterMap id)
          = c.contributions := by
        apply BMap.ext
        intro k
        rw [get_collected]
        split
        · rfl
        · rw [h5 k (by omega)]
      rw [this, ← h1, ← h2]

theorem collect_cases {ε α β : Type} (f : α → Res ε β) (l : List α) :
    (∃ ys, collect f l = .ok ys) ∨ (∃ x ∈ l, ∃ e, f x = .err e ∧ collect f l = .err e) ∨
      (collect f l = .panic ∧ ∃ x ∈ l, f x = .panic) ∨ (collect f l = .diverge ∧ ∃ x ∈ l, f x = .diverge) := by
  induction l with
  | nil => exact Or.inl ⟨[], rfl⟩
  | cons x xs ih =>
    rw [collect_cons]
    cases hx : f x with
    | ok y =>
      rw [Res.bind_ok']
      rcases ih with ⟨ys, h⟩ | ⟨z, hz, e, h1, h2⟩ | ⟨h1, z, hz, h2⟩ | ⟨h1, z, hz, h2⟩
      · exact Or.inl ⟨y :: ys, by rw [h]; rfl⟩
      · exact Or.inr (Or.inl ⟨z, by simp [hz], e, h1, by rw [h2]; rfl⟩)
      · exact Or.inr (Or.inr (Or.inl ⟨by rw [h1]; rfl, z, by simp [hz], h2⟩))
      · exact Or.inr (Or.inr (Or.inr ⟨by rw [h1]; rfl, z, by simp [hz], h2⟩))
    | err e => exact Or.inr (Or.inl ⟨x, by simp, e, hx, rfl⟩)
    | panic => exact Or.inr (Or.inr (Or.inl ⟨rfl, x, by simp, hx⟩))
    | diverge => exact Or.inr (Or.inr (Or.inr ⟨rfl, x, by simp, hx⟩))

/-- Errors of `aggregate`: configuration or conflicting `gs`. -/
theorem aggregate_err {m : Mode} {a b : AggShare r G1 G2} {e : PVSSError} (h : a.aggregate m b = .err e) :
    ((a.degree ≠ b.degree ∨ a.numParticipants ≠ b.numParticipants) ∧
      e = .TranscriptDifferentConfig a.degree b.degree a.numParticipants b.numParticipants) ∨
    (a.degree = b.degree ∧ a.numParticipants = b.numParticipants ∧ e = .TranscriptDifferentCommitments ∧
      ∃ i < a.numParticipants, ∃ x w y w', a.contributions.get i = some (x, w) ∧ b.contributions.get i = some (y, w') ∧
        x.decompProof.gs ≠ y.decompProof.gs) := by
  unfold AggShare.aggregate at h
  split at h
  · rename_i hc
    exact Or.inl ⟨hc, (Res.err.inj h).symm⟩
  rename_i hc
  push Not at hc
  right
  rw [Res.bind_eq_err] at h
  rcases h with h | ⟨ys, -, h⟩
  · rcases collect_cases (mergeAt m a.contributions b.contributions) (List.range a.numParticipants) with
      ⟨ys, h'⟩ | ⟨i, hi, e', h1, h2⟩ | ⟨h1, -⟩ | ⟨h1, -⟩
    · rw [h'] at h; cases h
    · rw [h2] at h
      cases h
      have h1' := h1
      rw [mergeAt_eq, Res.bind_eq_err] at h1
      rcases h1 with h1 | ⟨v, -, h1⟩
      · refine ⟨hc.1, hc.2, mergeVal_err h1, i, by simpa using hi, ?_⟩
        unfold mergeVal at h1
        split at h1
        · rename_i x w y w' hx hy
          split at h1
          · rename_i hne
            exact ⟨x, w, y, w', hx, hy, hne⟩
          · rw [Res.bind_eq_err] at h1
            rcases h1 with h1 | ⟨_, _, h1⟩
            · exact absurd h1 addWeight_ne_err
            · cases h1
        all_goals cases h1
      · cases h1
    · rw [h1] at h; cases h
    · rw [h1] at h; cases h
  · rw [Res.bind_eq_err] at h
    rcases h with h | ⟨_, _, h⟩
    · exact absurd h Res.unwrap_ne_err
    · cases h

theorem aggregate_ne_diverge {m : Mode} {a b : AggShare r G1 G2} : a.aggregate m b ≠ .diverge := by
  unfold AggShare.aggregate
  split
  · simp
  rcases collect_cases (mergeAt m a.contributions b.contributions) (List.range a.numParticipants) with
    ⟨ys, h'⟩ | ⟨i, hi, e', h1, h2⟩ | ⟨h1, -⟩ | ⟨h1, i, -, h2⟩
  · rw [h', Res.bind_ok']
    rcases coreAggregate_cases a.core b.core with ⟨c, h⟩ | ⟨e, h⟩ <;> rw [h] <;> simp
  · rw [h2]; simp
  · rw [h1]; simp
  · rw [mergeAt_eq] at h2
    exfalso
    cases h3 : mergeVal m (a.contributions.get i) (b.contributions.get i) with
    | diverge => exact mergeVal_ne_diverge h3
    | ok => rw [h3] at h2; cases h2
    | err => rw [h3] at h2; cases h2
    | panic => rw [h3] at h2; cases h2

/-! ### sums over contributions -/

theorem lookupL_none_of_notMem {V : Type} {k : ℕ} {l : List (ℕ × V)} (h : k ∉ l.map Prod.fst) : BMap.lookupL k l = none := by
  cases h' : BMap.lookupL k l with
  | none => rfl
  | some v => exact absurd (List.mem_map.2 ⟨_, BMap.lookupL_eq_some_mem h', rfl⟩) h

theorem sum_entries_lookupL {V G : Type} [AddCommGroup G] (f : ℕ → V → G) {n : ℕ} (l : List (ℕ × V))
    (hnd : (l.map Prod.fst).Nodup) (hlt : ∀ e ∈ l, e.1 < n) :
    (l.map fun e => f e.1 e.2).sum = ∑ i ∈ range n, (BMap.lookupL i l).elim 0 (f i) := by
  induction l with
  | nil => simp [BMap.lookupL]
  | cons e l ih =>
    rw [List.map_cons, List.nodup_cons] at hnd
    rw [List.map_cons, List.sum_cons, ih hnd.2 fun x hx => hlt x (by simp [hx])]
    have hk := lookupL_none_of_notMem hnd.1
    have : ∀ i ∈ range n, (BMap.lookupL i (e :: l)).elim 0 (f i) =
        (if i = e.1 then f e.1 e.2 else 0) + (BMap.lookupL i l).elim 0 (f i) := by
      intro i _
      obtain ⟨k, v⟩ := e
      simp only [BMap.lookupL]
      by_cases h : i = k
      · subst h
        simp only at hk
        simp [hk]
      · simp [h]
    rw [sum_congr rfl this, sum_add_distrib, sum_ite_eq', if_pos (by simpa using hlt e (by simp))]

theorem nodup_keys {V : Type} (c : BMap V) : (c.entries.map Prod.fst).Nodup := by
  have := c.2
  unfold List.Nodup
  rw [List.pairwise_map]
  exact this.imp fun h => Nat.ne_of_lt h

theorem sum_entries {V G : Type} [AddCommGroup G] (f : ℕ → V → G) {n : ℕ} (c : BMap V)
    (hlt : ∀ i v, c.get i = some v → i < n) :
    (c.entries.map fun e => f e.1 e.2).sum = ∑ i ∈ range n, (c.get i).elim 0 (f i) :=
  sum_entries_lookupL f c.entries (nodup_keys c) fun e he => hlt e.1 e.2 (c.mem_entries.1 he)

end
end Verif
