import Verif.Props.Hash

/-!
# Challenges are unbiased: C92

The bytes the generator produces are taken to be uniformly random, and the outcomes of `hash_to_field` and `hash_to_group` are
counted.
-/

open Finset

namespace Verif

set_option linter.unusedSectionVars false

/-- There are 256 bytes. -/
instance : Fintype UInt8 := Fintype.ofEquiv (Fin 256) ⟨UInt8.ofFin, UInt8.toFin, fun _ => rfl, fun _ => rfl⟩

theorem card_uint8 : Fintype.card UInt8 = 256 := by
  rw [Fintype.card_congr (⟨UInt8.toFin, UInt8.ofFin, fun _ => rfl, fun _ => rfl⟩ : UInt8 ≃ Fin 256), Fintype.card_fin]

section General

variable {α β : Type} [DecidableEq α] [Fintype β] {k : ℕ}

/-- The first decodable one of `k` blocks decodes to `x`. -/
def Spec.Yields (D : β → Option α) (b : Fin k → β) (x : α) : Prop :=
  ∃ j, D (b j) = some x ∧ ∀ l < j, D (b l) = none

open Classical in
/-- How often `x` is the outcome depends only on how many blocks decode to `x`. -/
theorem card_yields (D : β → Option α) (x : α) :
    (univ.filter fun b : Fin k → β => Spec.Yields D b x).card =
      ∑ j : Fin k, ∏ l : Fin k, if l < j then (univ.filter fun s => D s = none).card
        else if l = j then (univ.filter fun s => D s = some x).card else Fintype.card β := by
  have h : (univ.filter fun b : Fin k → β => Spec.Yields D b x) = univ.biUnion fun j : Fin k =>
      Fintype.piFinset fun l => if l < j then univ.filter fun s => D s = none
        else if l = j then univ.filter fun s => D s = some x else univ := by
    ext b
    simp only [mem_filter, mem_univ, true_and, mem_biUnion, Fintype.mem_piFinset]
    unfold Spec.Yields
    refine exists_congr fun j => ⟨fun ⟨h1, h2⟩ l => ?_, fun h => ⟨?_, fun l hl => ?_⟩⟩
    · split
      · rename_i hl; simpa using h2 l hl
      · split
        · rename_i hl; subst hl; simpa using h1
        · simp
    · simpa using h j
    · simpa [hl] using h l
  rw [h, card_biUnion]
  · refine sum_congr rfl fun j _ => ?_
    rw [Fintype.card_piFinset]
    refine prod_congr rfl fun l _ => ?_
    split
    · rfl
    · split
      · rfl
      · rw [card_univ]
  · have key : ∀ j j' : Fin k, j < j' → ∀ b : Fin k → β,
        b ∈ (Fintype.piFinset fun l => if l < j then univ.filter fun s => D s = none
          else if l = j then univ.filter fun s => D s = some x else univ) →
        b ∈ (Fintype.piFinset fun l => if l < j' then univ.filter fun s => D s = none
          else if l = j' then univ.filter fun s => D s = some x else univ) → False := by
      intro j j' hjj b h1 h2
      rw [Fintype.mem_piFinset] at h1 h2
      have h1 := h1 j
      have h2 := h2 j
      simp only [lt_irrefl, if_false, if_true, mem_filter, mem_univ, true_and, hjj] at h1 h2
      rw [h1] at h2
      cases h2
    intro j _ j' _ hne
    rw [Function.onFun, disjoint_left]
    intro b h1 h2
    rcases lt_or_gt_of_ne hne with h | h
    · exact key j j' h b h1 h2
    · exact key j' j h b h2 h1

open Classical in
/-- No block of `k` decodes, or the first that does gives the outcome. -/
theorem card_yields_total [Fintype α] (D : β → Option α) :
    ∑ x, (univ.filter fun b : Fin k → β => Spec.Yields D b x).card + (univ.filter fun s => D s = none).card ^ k =
      Fintype.card β ^ k := by
  have h1 : ∑ x, (univ.filter fun b : Fin k → β => Spec.Yields D b x).card =
      (univ.filter fun b : Fin k → β => ∃ j, D (b j) ≠ none).card := by
    rw [← card_biUnion]
    · congr 1
      ext b
      simp only [mem_biUnion, mem_filter, mem_univ, true_and]
      unfold Spec.Yields
      constructor
      · rintro ⟨x, j, h, -⟩
        exact ⟨j, by simp [h]⟩
      · intro h
        obtain ⟨j, hj, hmin⟩ := exists_min_image (univ.filter fun j => D (b j) ≠ none) id
          (by obtain ⟨j, hj⟩ := h; exact ⟨j, by simpa using hj⟩)
        simp only [mem_filter, mem_univ, true_and, id] at hj hmin
        obtain ⟨x, hx⟩ := Option.ne_none_iff_exists'.1 hj
        refine ⟨x, j, hx, fun l hl => ?_⟩
        by_contra hn
        exact absurd (hmin l hn) (not_le.2 hl)
    · intro x _ y _ hxy
      rw [Function.onFun, disjoint_left]
      intro b h1 h2
      simp only [mem_filter, mem_univ, true_and] at h1 h2
      unfold Spec.Yields at h1 h2
      obtain ⟨j, h1, h1'⟩ := h1
      obtain ⟨l, h2, h2'⟩ := h2
      rcases lt_trichotomy j l with h | h | h
      · rw [h2' j h] at h1; cases h1
      · subst h
        rw [h1] at h2
        exact hxy (Option.some.inj h2)
      · rw [h1' l h] at h2; cases h2
  have h2 : (univ.filter fun s => D s = none).card ^ k = (univ.filter fun b : Fin k → β => ¬ ∃ j, D (b j) ≠ none).card := by
    have : (univ.filter fun b : Fin k → β => ¬ ∃ j, D (b j) ≠ none) =
        Fintype.piFinset fun _ => univ.filter fun s => D s = none := by
      ext b
      simp
    rw [this, Fintype.card_piFinset]
    simp
  rw [h1, h2, card_filter_add_card_filter_not]
  simp

end General

variable {r : ℕ} [Fact r.Prime] {ε : Type}

/-- The environment's byte stream for the message starts with the given `k` blocks of `size` bytes. -/
def Spec.StartsWith {k size : ℕ} (s : ℕ → UInt8) (b : Fin k → Fin size → UInt8) : Prop :=
  ∀ (j : Fin k) (i : Fin size), s (j * size + i) = b j i

theorem block_of_startsWith {k size : ℕ} {s : ℕ → UInt8} {b : Fin k → Fin size → UInt8} (h : Spec.StartsWith s b)
    (j : Fin k) : block s size j = List.ofFn (b j) := by
  unfold block
  apply List.ext_getElem (by simp)
  intro i h1 h2
  simp only [List.length_map, List.length_range] at h1
  simp only [List.getElem_map, List.getElem_range, List.getElem_ofFn]
  exact h j ⟨i, h1⟩

/-- The loop run on a stream that starts with decodable blocks returns what these yield. -/
theorem firstSome_yields {α : Type} {k size : ℕ} {D : List UInt8 → Option α} {s : ℕ → UInt8} {b : Fin k → Fin size → UInt8}
    (h : Spec.StartsWith s b) (hb : ∃ j, D (List.ofFn (b j)) ≠ none) (x : α) :
    (firstSome (fun j => D (block s size j)) : Res ε α) = .ok x ↔ Spec.Yields (fun t => D (List.ofFn t)) b x := by
  have huniq : ∀ y, (∃ j : Fin k, D (block s size j) = some y ∧ ∀ l < (j : ℕ), D (block s size l) = none) ↔
      Spec.Yields (fun t => D (List.ofFn t)) b y := by
    intro y
    refine exists_congr fun j => ?_
    rw [block_of_startsWith h]
    refine and_congr_right fun _ => ⟨fun h' l hl => ?_, fun h' l hl => ?_⟩
    · have := h' l hl
      rwa [block_of_startsWith h] at this
    · have : D (List.ofFn (b ⟨l, by omega⟩)) = none := h' ⟨l, by omega⟩ hl
      rwa [← block_of_startsWith h] at this
  rw [← huniq]
  obtain ⟨j, hj⟩ := hb
  rw [← block_of_startsWith h] at hj
  rcases firstSome_cases (ε := ε) (fun j => D (block s size j)) with ⟨n, a, h1, h2, h3⟩ | ⟨h1, h3⟩
  · rw [h3]
    have hn : n ≤ j := by
      by_contra hn
      exact hj (h2 j (by omega))
    constructor
    · intro e
      injection e with e
      subst e
      exact ⟨⟨n, by omega⟩, h1, h2⟩
    · rintro ⟨l, e1, e2⟩
      rcases lt_trichotomy n l with hl | hl | hl
      · rw [e2 n hl] at h1; cases h1
      · rw [hl] at h1
        rw [h1] at e1
        rw [Option.some.inj e1]
      · rw [h2 l hl] at e1; cases e1
  · exact absurd (h1 j) hj

open Classical in
/-- **C92** (`hash_to_field`). Let every field element be the decoding of the same number `μ` of blocks. Among all contents
of the first `k` blocks of the generator's output, every field element is the result equally often; the only others are the
contents without a decodable block, the share of which falls exponentially in `k`. -/
theorem C92 (k size μ : ℕ) (D : List UInt8 → Option (ZMod r)) (p msg : List UInt8) (hp : p.length ≤ 8)
    (env : (Fin k → Fin size → UInt8) → HashEnv r) (hsize : ∀ b, (env b).frSize = size) (hD : ∀ b, (env b).frFromRandom = D)
    (hs : ∀ b, Spec.StartsWith ((env b).stream (padPersona p) msg) b)
    (hμ : ∀ x, (univ.filter fun s : Fin size → UInt8 => D (List.ofFn s) = some x).card = μ) (x : ZMod r) :
    r * (univ.filter fun b : Fin k → Fin size → UInt8 =>
        (∃ j, D (List.ofFn (b j)) ≠ none) ∧ (hashToField (env b) p msg : Res ε _) = .ok x).card +
      (256 ^ size - r * μ) ^ k = (256 ^ size) ^ k := by
  have hN : Fintype.card (Fin size → UInt8) = 256 ^ size := by
    rw [Fintype.card_fun, Fintype.card_fin, card_uint8]
  have hz : (univ.filter fun s : Fin size → UInt8 => D (List.ofFn s) = none).card = 256 ^ size - r * μ := by
    have h1 := card_yields_total (k := 1) fun s : Fin size → UInt8 => D (List.ofFn s)
    simp only [pow_one, hN] at h1
    have h2 : ∀ x, (univ.filter fun b : Fin 1 → Fin size → UInt8 =>
        Spec.Yields (fun s => D (List.ofFn s)) b x).card = μ := by
      intro x
      rw [card_yields]
      simp [hμ]
    simp only [h2, sum_const, card_univ, ZMod.card, smul_eq_mul] at h1
    omega
  have hcount : ∀ y, (univ.filter fun b : Fin k → Fin size → UInt8 =>
        (∃ j, D (List.ofFn (b j)) ≠ none) ∧ (hashToField (env b) p msg : Res ε _) = .ok y) =
      univ.filter fun b : Fin k → Fin size → UInt8 => Spec.Yields (fun s => D (List.ofFn s)) b y := by
    intro y
    ext b
    simp only [mem_filter, mem_univ, true_and]
    have hf : (hashToField (env b) p msg : Res ε _) =
        firstSome fun j => D (block ((env b).stream (padPersona p) msg) size j) := by
      unfold hashToField
      rw [if_neg (by omega), hsize, hD]
    rw [hf]
    constructor
    · rintro ⟨h1, h2⟩
      exact (firstSome_yields (hs b) h1 y).1 h2
    · intro h
      have h1 : ∃ j, D (List.ofFn (b j)) ≠ none := by
        obtain ⟨j, hj, -⟩ := h
        exact ⟨j, by simp only at hj; rw [hj]; simp⟩
      exact ⟨h1, (firstSome_yields (hs b) h1 y).2 h⟩
  have htot := card_yields_total (k := k) fun s : Fin size → UInt8 => D (List.ofFn s)
  have heq : ∀ y, (univ.filter fun b : Fin k → Fin size → UInt8 =>
      Spec.Yields (fun s => D (List.ofFn s)) b y).card = (univ.filter fun b : Fin k → Fin size → UInt8 =>
      Spec.Yields (fun s => D (List.ofFn s)) b x).card := by
    intro y
    rw [card_yields, card_yields, hμ y, hμ x]
  simp only [heq, sum_const, card_univ, ZMod.card, smul_eq_mul, hz, hN] at htot
  rw [hcount, htot]

variable {E : Type} [AddCommGroup E] [DecidableEq E]

open Classical in
/-- **C92** (`hash_to_group`). Two points that come out of equally many blocks (as a non-zero cofactor multiple) are returned
equally often. -/
theorem C92_group (k : ℕ) (C : RawCurve E) (p msg : List UInt8) (hp : p.length ≤ 8)
    (env : (Fin k → Fin C.size → UInt8) → HashEnv r)
    (hs : ∀ b, Spec.StartsWith ((env b).stream (padPersona p) msg) b) (x y : E)
    (hμ : (univ.filter fun s : Fin C.size → UInt8 => ∃ P, C.fromRandom (List.ofFn s) = some P ∧ C.cofactor • P ≠ 0 ∧
        x = C.cofactor • P).card =
      (univ.filter fun s : Fin C.size → UInt8 => ∃ P, C.fromRandom (List.ofFn s) = some P ∧ C.cofactor • P ≠ 0 ∧
        y = C.cofactor • P).card) :
    (univ.filter fun b : Fin k → Fin C.size → UInt8 => (∃ j, Spec.Acceptable C (List.ofFn (b j))) ∧
        (hashToGroup (env b) C p msg : Res ε _) = .ok x).card =
      (univ.filter fun b : Fin k → Fin C.size → UInt8 => (∃ j, Spec.Acceptable C (List.ofFn (b j))) ∧
        (hashToGroup (env b) C p msg : Res ε _) = .ok y).card := by
  let D : List UInt8 → Option E := fun b =>
    match C.fromRandom b with
      | some p => if C.cofactor • p = 0 then none else some (C.cofactor • p)
      | none => none
  have hD : ∀ b x, D b = some x ↔ ∃ P, C.fromRandom b = some P ∧ C.cofactor • P ≠ 0 ∧ x = C.cofactor • P :=
    fun b x => groupAttempt_some C b x
  have hD0 : ∀ b, D b ≠ none ↔ Spec.Acceptable C b := fun b => by
    rw [ne_eq, not_iff_comm]
    exact (groupAttempt_none C b).symm
  have hcount : ∀ y, (univ.filter fun b : Fin k → Fin C.size → UInt8 =>
        (∃ j, Spec.Acceptable C (List.ofFn (b j))) ∧ (hashToGroup (env b) C p msg : Res ε _) = .ok y) =
      univ.filter fun b : Fin k → Fin C.size → UInt8 => Spec.Yields (fun s => D (List.ofFn s)) b y := by
    intro y
    ext b
    simp only [mem_filter, mem_univ, true_and, ← hD0]
    have hf : (hashToGroup (env b) C p msg : Res ε _) =
        firstSome fun j => D (block ((env b).stream (padPersona p) msg) C.size j) := by
      unfold hashToGroup
      rw [if_neg (by omega)]
      rfl
    rw [hf]
    constructor
    · rintro ⟨h1, h2⟩
      exact (firstSome_yields (hs b) h1 y).1 h2
    · intro h
      have h1 : ∃ j, D (List.ofFn (b j)) ≠ none := by
        obtain ⟨j, hj, -⟩ := h
        exact ⟨j, by simp only at hj; rw [hj]; simp⟩
      exact ⟨h1, (firstSome_yields (hs b) h1 y).2 h⟩
  rw [hcount, hcount, card_yields, card_yields]
  simp only [hD, hμ]

/-- Decode a single byte below 13. -/
def Toy.byteDecode (b : List UInt8) : Option (ZMod 13) :=
  match b with
  | [c] => if c.toNat < 13 then some (c.toNat : ZMod 13) else none
  | _ => none

open Classical in
/-- Non-vacuity of C92: every element of the field with 13 elements is the decoding of one byte, and there is an environment for
every content of the blocks. -/
example (k : ℕ) :
    (∀ x : ZMod 13, (univ.filter fun s : Fin 1 → UInt8 => Toy.byteDecode (List.ofFn s) = some x).card = 1) ∧
    ∃ env : (Fin k → Fin 1 → UInt8) → HashEnv 13, ∀ b, (env b).frSize = 1 ∧ (env b).frFromRandom = Toy.byteDecode ∧
      ∀ p msg, Spec.StartsWith ((env b).stream p msg) b := by
  refine ⟨fun x => ?_, fun b => ⟨fun _ _ n => if h : n < k then b ⟨n, h⟩ 0 else 0, 1, Toy.byteDecode⟩, fun b => ⟨rfl, rfl, ?_⟩⟩
  · rw [card_eq_one]
    refine ⟨fun _ => UInt8.ofNat x.val, ?_⟩
    have hx : x.val < 13 := ZMod.val_lt x
    ext s
    simp only [mem_filter, mem_univ, true_and, mem_singleton, List.ofFn_succ, List.ofFn_zero, Toy.byteDecode]
    constructor
    · intro h
      split at h
      · rename_i hlt
        injection h with h
        funext i
        rw [Subsingleton.elim i 0, ← h, ZMod.val_natCast, Nat.mod_eq_of_lt hlt]
        simp
      · cases h
    · rintro rfl
      rw [UInt8.toNat_ofNat_of_lt' (by show _ < 256; omega), if_pos hx]
      simp
  · intro p msg j i
    rw [Subsingleton.elim i 0]
    simp

end Verif
