import Mathlib.Data.List.Basic
import Mathlib.Data.List.Pairwise

/-!
# `BTreeMap<usize, V>`

`ark_std::collections::BTreeMap` (used in /repo/src/modified_scrape/{aggregator,share,node}.rs) as a
key-sorted association list.  The sortedness proof is part of the type, so equality of model values is
equality of maps and iteration order is key order, as in Rust.
-/

namespace Verif

/-- Strictly key-sorted association list. -/
def BMap (V : Type) : Type := {l : List (ℕ × V) // l.Pairwise (fun a b => a.1 < b.1)}

namespace BMap
variable {V : Type}

instance [DecidableEq V] : DecidableEq (BMap V) := inferInstanceAs (DecidableEq {_l : List (ℕ × V) // _})

/-- `BTreeMap::new()`. -/
def empty : BMap V := ⟨[], List.Pairwise.nil⟩

/-- `map.iter()`: entries in key order. -/
def entries (m : BMap V) : List (ℕ × V) := m.1

/-- Lookup in an association list. -/
def lookupL (k : ℕ) : List (ℕ × V) → Option V
  | [] => none
  | (k', v) :: l => if k = k' then some v else lookupL k l

/-- `map.get(&k)`. -/
def get (m : BMap V) (k : ℕ) : Option V := lookupL k m.1

/-- Sorted insertion, replacing an existing key. -/
def insertL (k : ℕ) (v : V) : List (ℕ × V) → List (ℕ × V)
  | [] => [(k, v)]
  | (k', v') :: l =>
    if k < k' then (k, v) :: (k', v') :: l
    else if k = k' then (k, v) :: l
    else (k', v') :: insertL k v l

theorem insertL_mem {k : ℕ} {v : V} {l : List (ℕ × V)} {x : ℕ × V} (h : x ∈ insertL k v l) :
    x = (k, v) ∨ x ∈ l := by
  induction l with
  | nil => simpa [insertL] using h
  | cons a l ih =>
    obtain ⟨k', v'⟩ := a
    unfold insertL at h
    split at h
    · simpa using h
    · split at h
      · rcases List.mem_cons.1 h with h | h
        · exact Or.inl h
        · exact Or.inr (List.mem_cons_of_mem _ h)
      · rcases List.mem_cons.1 h with h | h
        · exact Or.inr (h ▸ List.mem_cons_self)
        · rcases ih h with h | h
          · exact Or.inl h
          · exact Or.inr (List.mem_cons_of_mem _ h)

theorem insertL_sorted {k : ℕ} {v : V} {l : List (ℕ × V)} (h : l.Pairwise (fun a b => a.1 < b.1)) :
    (insertL k v l).Pairwise (fun a b => a.1 < b.1) := by
  induction l with
  | nil => simp [insertL]
  | cons a l ih =>
    obtain ⟨k', v'⟩ := a
    obtain ⟨h1, h2⟩ := List.pairwise_cons.1 h
    unfold insertL
    split
    · rename_i hk
      refine List.pairwise_cons.2 ⟨?_, h⟩
      intro b hb
      rcases List.mem_cons.1 hb with hb | hb
      · subst hb; exact hk
      · exact Nat.lt_trans hk (h1 b hb)
    · split
      · rename_i hk; subst hk
        exact List.pairwise_cons.2 ⟨h1, h2⟩
      · refine List.pairwise_cons.2 ⟨?_, ih h2⟩
        intro b hb
        rcases insertL_mem hb with hb | hb
        · subst hb; show k' < k; omega
        · exact h1 b hb

/-- `map.insert(k, v)`. -/
def insert (m : BMap V) (k : ℕ) (v : V) : BMap V := ⟨insertL k v m.1, insertL_sorted m.2⟩

/-- `iter.collect::<BTreeMap<_, _>>()`: later entries replace earlier ones. -/
def ofList (l : List (ℕ × V)) : BMap V := l.foldl (fun m kv => m.insert kv.1 kv.2) empty

end BMap
end Verif
