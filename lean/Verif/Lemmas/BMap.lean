import Verif.Model.BMap
import Mathlib.Data.List.Sort
import Mathlib.Data.List.Induction

/-! Lookup semantics of `BMap`. -/

namespace Verif.BMap

variable {V : Type}

@[simp] theorem get_empty (k : ℕ) : (empty : BMap V).get k = none := rfl

@[simp] theorem entries_empty : (empty : BMap V).entries = [] := rfl

theorem lookupL_of_lt {k : ℕ} {l : List (ℕ × V)} (h : ∀ x ∈ l, k < x.1) : lookupL k l = none := by
  induction l with
  | nil => rfl
  | cons a l ih =>
    obtain ⟨k', v'⟩ := a
    have := h (k', v') (by simp)
    simp only at this
    rw [lookupL, if_neg (by omega), ih fun x hx => h x (by simp [hx])]

theorem lookupL_insertL (k k' : ℕ) (v : V) (l : List (ℕ × V)) (hl : l.Pairwise fun a b => a.1 < b.1) :
    lookupL k' (insertL k v l) = if k' = k then some v else lookupL k' l := by
  induction l with
  | nil => simp [insertL, lookupL]
  | cons a l ih =>
    obtain ⟨a, b⟩ := a
    obtain ⟨h1, h2⟩ := List.pairwise_cons.1 hl
    unfold insertL
    split
    · simp [lookupL]
    · split
      · rename_i h3 h4
        subst h4
        simp only [lookupL]
        split <;> rfl
      · rename_i h3 h4
        simp only [lookupL, ih h2]
        split
        · rename_i h5
          rw [if_neg (by omega)]
        · rfl

theorem get_insert (m : BMap V) (k k' : ℕ) (v : V) : (m.insert k v).get k' = if k' = k then some v else m.get k' :=
  lookupL_insertL k k' v m.1 m.2

theorem mem_iff_lookupL {l : List (ℕ × V)} (hl : l.Pairwise fun a b => a.1 < b.1) {k : ℕ} {v : V} :
    (k, v) ∈ l ↔ lookupL k l = some v := by
  induction l with
  | nil => simp [lookupL]
  | cons a l ih =>
    obtain ⟨a, b⟩ := a
    obtain ⟨h1, h2⟩ := List.pairwise_cons.1 hl
    rw [List.mem_cons, lookupL]
    split
    · rename_i h
      subst h
      constructor
      · rintro (h | h)
        · cases h; rfl
        · exact absurd (h1 _ h) (by simp)
      · rintro h; cases h; exact Or.inl rfl
    · rename_i h
      rw [← ih h2]
      constructor
      · rintro (h' | h')
        · cases h'; exact absurd rfl h
        · exact h'
      · exact Or.inr

theorem mem_entries (m : BMap V) {k : ℕ} {v : V} : (k, v) ∈ m.entries ↔ m.get k = some v := mem_iff_lookupL m.2

theorem sorted_ext {l l' : List (ℕ × V)} (hl : l.Pairwise fun a b => a.1 < b.1)
    (hl' : l'.Pairwise fun a b => a.1 < b.1) (h : ∀ k, lookupL k l = lookupL k l') : l = l' := by
  have hmem : ∀ x, x ∈ l ↔ x ∈ l' := by
    rintro ⟨k, v⟩
    rw [mem_iff_lookupL hl, mem_iff_lookupL hl', h]
  have hnd : l.Nodup := hl.imp (fun h e => by rw [e] at h; exact absurd h (lt_irrefl _))
  have hnd' : l'.Nodup := hl'.imp (fun h e => by rw [e] at h; exact absurd h (lt_irrefl _))
  have hperm : l.Perm l' := (List.perm_ext_iff_of_nodup hnd hnd').2 hmem
  exact hperm.eq_of_pairwise (fun a b _ _ h1 h2 => absurd (lt_trans h1 h2) (lt_irrefl _)) hl hl'

theorem ext {m m' : BMap V} (h : ∀ k, m.get k = m'.get k) : m = m' := Subtype.ext (sorted_ext m.2 m'.2 h)

/-- Inserting entries from left to right: the last entry of a key wins. -/
theorem get_foldl_insert (l : List (ℕ × V)) (m : BMap V) (k : ℕ) :
    (l.foldl (fun m kv => m.insert kv.1 kv.2) m).get k = (lookupL k l.reverse).or (m.get k) := by
  induction l using List.reverseRecOn with
  | nil => simp [lookupL]
  | append_singleton l a ih =>
    obtain ⟨k', v⟩ := a
    rw [List.foldl_append, List.foldl_cons, List.foldl_nil, get_insert, ih, List.reverse_append]
    simp only [List.reverse_cons, List.reverse_nil, List.nil_append, List.cons_append, lookupL]
    split <;> simp

theorem get_ofList (l : List (ℕ × V)) (k : ℕ) : (ofList l).get k = lookupL k l.reverse := by
  rw [ofList, get_foldl_insert]; simp

theorem lookupL_eq_some_mem {k : ℕ} {l : List (ℕ × V)} {v : V} (h : lookupL k l = some v) : (k, v) ∈ l := by
  induction l with
  | nil => cases h
  | cons a l ih =>
    obtain ⟨a, b⟩ := a
    rw [lookupL] at h
    split at h
    · rename_i hk; cases h; subst hk; simp
    · exact List.mem_cons_of_mem _ (ih h)

theorem lookupL_eq_some_of_nodup {k : ℕ} {l : List (ℕ × V)} {v : V} (hnd : (l.map Prod.fst).Nodup) (h : (k, v) ∈ l) :
    lookupL k l = some v := by
  induction l with
  | nil => cases h
  | cons a l ih =>
    obtain ⟨a, b⟩ := a
    rw [List.map_cons, List.nodup_cons] at hnd
    rw [lookupL]
    rcases List.mem_cons.1 h with h' | h'
    · cases h'; simp
    · rw [if_neg, ih hnd.2 h']
      intro hk
      subst hk
      exact hnd.1 (List.mem_map.2 ⟨(k, v), h', rfl⟩)

/-- Looking up in a map collected from a list with distinct keys. -/
theorem get_ofList_nodup {l : List (ℕ × V)} (hnd : (l.map Prod.fst).Nodup) (k : ℕ) :
    (ofList l).get k = lookupL k l := by
  rw [get_ofList]
  have hr : (l.reverse.map Prod.fst).Nodup := by rw [List.map_reverse]; exact List.nodup_reverse.2 hnd
  cases h : lookupL k l with
  | some v => exact lookupL_eq_some_of_nodup hr (List.mem_reverse.2 (lookupL_eq_some_mem h))
  | none =>
    cases h' : lookupL k l.reverse with
    | none => rfl
    | some v =>
      have := lookupL_eq_some_of_nodup hnd (List.mem_reverse.1 (lookupL_eq_some_mem h'))
      rw [h] at this; cases this

theorem ofList_entries (m : BMap V) : ofList m.entries = m := by
  apply ext
  intro k
  refine get_ofList_nodup ?_ k
  unfold entries
  rw [List.Nodup, List.pairwise_map]
  exact m.2.imp fun h => ne_of_lt h

end Verif.BMap
