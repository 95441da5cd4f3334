import Verif.Props.Oracle
import Verif.Props.Forgery

/-!
Chosen-message attacks on signatures of the form commitment, challenge, response, where nonces and challenges are values of one hash
table: replacing the nonces by independent draws, and the signer by a simulation.
-/

open Finset

namespace Verif

set_option linter.unusedSectionVars false

variable {X V M Sg P S Q : Type}

/-- An attacker: the next step (a look-up or a message to be signed), from the replies so far. -/
structure Spec.Attacker (X V M Sg : Type) where
  act : List (V ⊕ Sg) → X ⊕ M

namespace Spec.Attacker

variable (A : Spec.Attacker X V M Sg)

/-- The replies to the first `i` steps: look-ups are answered by `f`, the request to sign `m` in step `j` by `sgn j m`. -/
def play (f : X → V) (sgn : ℕ → M → Sg) : ℕ → List (V ⊕ Sg)
  | 0 => []
  | i + 1 => play f sgn i ++ [match A.act (play f sgn i) with
    | .inl x => .inl (f x)
    | .inr m => .inr (sgn i m)]

/-- The attacker asked for a signature on `m`. -/
def Asked (l : List (V ⊕ Sg)) (m : M) : Prop := ∃ j < l.length, A.act (l.take j) = .inr m

/-- No message is sent to the signer twice. -/
def NoRepeat : Prop := ∀ l m, A.act l = .inr m → ¬ A.Asked l m

end Spec.Attacker

open Spec

variable (A : Spec.Attacker X V M Sg)

theorem play_length (f : X → V) (sgn : ℕ → M → Sg) (i : ℕ) : (A.play f sgn i).length = i := by
  induction i with
  | zero => rfl
  | succ i ih => rw [Attacker.play, List.length_append, ih]; rfl

theorem play_take (f : X → V) (sgn : ℕ → M → Sg) {i j : ℕ} (h : j ≤ i) : (A.play f sgn i).take j = A.play f sgn j := by
  induction i with
  | zero =>
    obtain rfl : j = 0 := by omega
    rfl
  | succ i ih =>
    rcases Nat.lt_or_ge i j with hj | hj
    · obtain rfl : j = i + 1 := by omega
      rw [List.take_of_length_le (by rw [play_length])]
    · rw [Attacker.play, List.take_append_of_le_length (by rw [play_length]; exact hj), ih hj]

theorem play_congr {f f' : X → V} {sgn sgn' : ℕ → M → Sg} {i : ℕ}
    (h1 : ∀ j < i, ∀ x, A.act (A.play f sgn j) = .inl x → f x = f' x)
    (h2 : ∀ j < i, ∀ m, A.act (A.play f sgn j) = .inr m → sgn j m = sgn' j m) : A.play f sgn i = A.play f' sgn' i := by
  induction i with
  | zero => rfl
  | succ i ih =>
    have e := ih (fun j hj => h1 j (by omega)) (fun j hj => h2 j (by omega))
    rw [Attacker.play, Attacker.play, ← e]
    congr 2
    rcases h : A.act (A.play f sgn i) with x | m
    · simp only [h1 i (by omega) x h]
    · simp only [h2 i (by omega) m h]

variable {A}

theorem Spec.Attacker.NoRepeat.eq (hA : A.NoRepeat) {f : X → V} {sgn : ℕ → M → Sg} {i j : ℕ} {m : M}
    (hi : A.act (A.play f sgn i) = .inr m) (hj : A.act (A.play f sgn j) = .inr m) : i = j := by
  rcases lt_trichotomy i j with h | h | h
  · exact absurd ⟨i, by rw [play_length]; exact h, by rw [play_take A f sgn h.le]; exact hi⟩ (hA _ _ hj)
  · exact h
  · exact absurd ⟨j, by rw [play_length]; exact h, by rw [play_take A f sgn h.le]; exact hj⟩ (hA _ _ hi)

theorem asked_play {f : X → V} {sgn : ℕ → M → Sg} {k i : ℕ} {m : M} (hi : i < k) (h : A.act (A.play f sgn i) = .inr m) :
    A.Asked (A.play f sgn k) m :=
  ⟨i, by rw [play_length]; exact hi, by rw [play_take A f sgn hi.le]; exact h⟩

/-- If every fibre over one coordinate has at most `b` elements, the set has at most `b |T|^(k-1)`. -/
theorem card_fibre_le {k : ℕ} {T : Type} [Fintype T] [DecidableEq T] [Nonempty T] (i : Fin k) (P : (Fin k → T) → Prop) [DecidablePred P] (b : ℕ)
    (h : ∀ c : Fin k → T, (univ.filter fun x : T => P (Function.update c i x)).card ≤ b) :
    (univ.filter P).card * Fintype.card T ≤ b * Fintype.card (Fin k → T) := by
  have hbij : (univ.filter fun p : (Fin k → T) × T => P (Function.update p.1 i p.2)).card =
      (univ.filter fun p : (Fin k → T) × T => P p.1).card := by
    refine card_bij' (fun p _ => (Function.update p.1 i p.2, p.1 i)) (fun p _ => (Function.update p.1 i p.2, p.1 i)) ?_ ?_ ?_ ?_
    · intro p hp
      simpa using hp
    · intro p hp
      simpa using hp
    · intro p _
      simp
    · intro p _
      simp
  have h1 : (univ.filter fun p : (Fin k → T) × T => P p.1).card = (univ.filter P).card * Fintype.card T := by
    rw [← card_univ, ← card_product]
    congr 1
    ext p
    simp
  have h2 : (univ.filter fun p : (Fin k → T) × T => P (Function.update p.1 i p.2)).card =
      ∑ c : Fin k → T, (univ.filter fun x : T => P (Function.update c i x)).card := by
    simp only [card_filter]
    rw [← univ_product_univ, sum_product]
  rw [← h1, ← hbij, h2]
  refine (sum_le_card_nsmul _ _ b fun c _ => h c).trans (le_of_eq ?_)
  rw [card_univ, smul_eq_mul, mul_comm]

/-- Draws for `k` steps. -/
noncomputable def Spec.pad [Nonempty V] {k : ℕ} (n : Fin k → V) (i : ℕ) : V := if h : i < k then n ⟨i, h⟩ else Classical.arbitrary V

theorem pad_fin [Nonempty V] {k : ℕ} (n : Fin k → V) (i : Fin k) : Spec.pad n i = n i := dif_pos i.2

theorem pad_lt [Nonempty V] {k : ℕ} (n : Fin k → V) {i : ℕ} (h : i < k) : Spec.pad n i = n ⟨i, h⟩ := dif_pos h

section Nonce

variable (pt : M → V → X) (sig : M → V → V → Sg)

/-- The signer takes the nonce from the table, at the point `np m`. -/
def Spec.byHash (np : M → X) (f : X → V) : ℕ → M → Sg := fun _ m => sig m (f (np m)) (f (pt m (f (np m))))

/-- The signer draws the nonce. -/
def Spec.byDraw (f : X → V) (n : ℕ → V) : ℕ → M → Sg := fun i m => sig m (n i) (f (pt m (n i)))

/-- No look-up before step `i` is one of the points of the nonces. -/
def Live (A : Spec.Attacker X V M Sg) (np : M → X) (run : ℕ → List (V ⊕ Sg)) (i : ℕ) : Prop :=
  ∀ j < i, ∀ m, A.act (run j) ≠ .inl (np m)

/-- The table and draws `f'`, `n` belong to the table `f` and the spare values `e`. -/
structure NonceRel [Nonempty V] {k : ℕ} (A : Spec.Attacker X V M Sg) (np : M → X) (f : X → V) (e : Fin k → V) (f' : X → V) (n : Fin k → V) : Prop where
  run : ∀ i ≤ k, Live A np (A.play f' (byDraw pt sig f' (pad n))) i →
    A.play f (byHash pt sig np f) i = A.play f' (byDraw pt sig f' (pad n)) i
  live : ∀ i ≤ k, Live A np (A.play f' (byDraw pt sig f' (pad n))) i ↔ Live A np (A.play f (byHash pt sig np f)) i
  at_ : ∀ (i : Fin k) (m : M), Live A np (A.play f' (byDraw pt sig f' (pad n))) i →
    A.act (A.play f' (byDraw pt sig f' (pad n)) i) = .inr m → f' (np m) = e i ∧ n i = f (np m)
  off : ∀ y, (∀ (i : Fin k) (m : M), Live A np (A.play f' (byDraw pt sig f' (pad n))) i →
    A.act (A.play f' (byDraw pt sig f' (pad n)) i) = .inr m → np m ≠ y) → f' y = f y
  spare : ∀ i : Fin k, (∀ m, Live A np (A.play f' (byDraw pt sig f' (pad n))) i →
    A.act (A.play f' (byDraw pt sig f' (pad n)) i) ≠ .inr m) → n i = e i

theorem NonceRel.inj [Nonempty V] {k : ℕ} {np : M → X} {f f₂ : X → V} {e e₂ : Fin k → V} {f' : X → V} {n : Fin k → V}
    (h : NonceRel pt sig A np f e f' n) (h₂ : NonceRel pt sig A np f₂ e₂ f' n) : f = f₂ ∧ e = e₂ := by
  constructor
  · funext y
    by_cases hy : ∃ (i : Fin k) (m : M), Live A np (A.play f' (byDraw pt sig f' (pad n))) i ∧
        A.act (A.play f' (byDraw pt sig f' (pad n)) i) = .inr m ∧ np m = y
    · obtain ⟨i, m, hl, ha, rfl⟩ := hy
      rw [← (h.at_ i m hl ha).2, ← (h₂.at_ i m hl ha).2]
    · have hy : ∀ (i : Fin k) (m : M), Live A np (A.play f' (byDraw pt sig f' (pad n))) i →
          A.act (A.play f' (byDraw pt sig f' (pad n)) i) = .inr m → np m ≠ y := fun i m hl ha hm => hy ⟨i, m, hl, ha, hm⟩
      rw [← h.off y hy, ← h₂.off y hy]
  · funext i
    by_cases hi : ∃ m, Live A np (A.play f' (byDraw pt sig f' (pad n))) i ∧
        A.act (A.play f' (byDraw pt sig f' (pad n)) i) = .inr m
    · obtain ⟨m, hl, ha⟩ := hi
      rw [← (h.at_ i m hl ha).1, ← (h₂.at_ i m hl ha).1]
    · have hi : ∀ m, Live A np (A.play f' (byDraw pt sig f' (pad n))) i →
          A.act (A.play f' (byDraw pt sig f' (pad n)) i) ≠ .inr m := fun m hl ha => hi ⟨m, hl, ha⟩
      rw [← h.spare i hi, ← h₂.spare i hi]

theorem nonceRel_exists [Nonempty V] {k : ℕ} (hA : A.NoRepeat) {np : M → X} (hnp : Function.Injective np)
    (hdis : ∀ m m' v, pt m v ≠ np m') (f : X → V) (e : Fin k → V) : ∃ f' n, NonceRel pt sig A np f e f' n := by
  classical
  set run := A.play f (byHash pt sig np f) with hrun
  let f' : X → V := fun y => if h : ∃ i : Fin k, Live A np run i ∧ ∃ m, A.act (run i) = .inr m ∧ np m = y then e h.choose else f y
  let n : Fin k → V := fun i => if h : Live A np run i ∧ ∃ m, A.act (run i) = .inr m then f (np h.2.choose) else e i
  have hf'off : ∀ y, (∀ m, y ≠ np m) → f' y = f y := by
    intro y hy
    refine dif_neg ?_
    rintro ⟨i, -, m, -, h⟩
    exact hy m h.symm
  have hn : ∀ (i : Fin k) (m : M), Live A np run i → A.act (run i) = .inr m → n i = f (np m) := by
    intro i m hl ha
    have h : Live A np run i ∧ ∃ m, A.act (run i) = .inr m := ⟨hl, m, ha⟩
    show (if h : _ then _ else _) = _
    rw [dif_pos h]
    congr 2
    exact Sum.inr.inj (h.2.choose_spec.symm.trans ha)
  have hf'at : ∀ (i : Fin k) (m : M), Live A np run i → A.act (run i) = .inr m → f' (np m) = e i := by
    intro i m hl ha
    have h : ∃ i : Fin k, Live A np run i ∧ ∃ m', A.act (run i) = .inr m' ∧ np m' = np m := ⟨i, hl, m, ha, rfl⟩
    show (if h : _ then _ else _) = _
    rw [dif_pos h]
    congr 1
    obtain ⟨-, m', ha', he⟩ := h.choose_spec
    obtain rfl := hnp he
    exact Fin.ext (hA.eq ha' ha)
  set g := A.play f' (byDraw pt sig f' (pad n)) with hg
  have heq : ∀ i ≤ k, Live A np run i → run i = g i := by
    intro i hi hl
    refine play_congr A ?_ ?_
    · intro j hj x hx
      refine (hf'off x fun m hm => hl j hj m ?_).symm
      rw [← hm]
      exact hx
    · intro j hj m hm
      have hnj : pad n j = f (np m) := by
        rw [pad_lt n (by omega : j < k)]
        exact hn ⟨j, by omega⟩ m (fun j' hj' => hl j' (by simp only at hj'; omega)) hm
      simp only [byHash, byDraw, hnj]
      rw [hf'off _ fun m' => hdis _ _ _]
  have hlive : ∀ i ≤ k, Live A np g i ↔ Live A np run i := by
    intro i hi
    constructor
    · intro h j
      induction j using Nat.strong_induction_on with
      | _ j ih =>
        intro hj m
        have hlj : Live A np run j := fun j' hj' => ih j' hj' (by omega)
        rw [heq j (by omega) hlj]
        exact h j hj m
    · intro h j hj m
      rw [← heq j (by omega) fun j' hj' => h j' (by omega)]
      exact h j hj m
  refine ⟨f', n, ⟨fun i hi hl => heq i hi ((hlive i hi).1 hl), hlive, ?_, ?_, ?_⟩⟩
  · intro i m hl ha
    have hl := (hlive i i.2.le).1 hl
    have ha : A.act (run i) = .inr m := by rw [heq i i.2.le hl]; exact ha
    exact ⟨hf'at i m hl ha, hn i m hl ha⟩
  · intro y hy
    refine dif_neg ?_
    rintro ⟨i, hl, m, ha, h⟩
    refine hy i m ((hlive i i.2.le).2 hl) ?_ h
    show A.act (g i) = _
    rw [← heq i i.2.le hl]
    exact ha
  · intro i hi
    refine dif_neg ?_
    rintro ⟨hl, m, ha⟩
    refine hi m ((hlive i i.2.le).2 hl) ?_
    show A.act (g i) = _
    rw [← heq i i.2.le hl]
    exact ha

variable [Fintype X] [DecidableEq X] [Fintype V] [Nonempty V] [Fintype P]

open Classical in
/-- Nonces from the table may be replaced by independent draws, up to look-ups that guess the secret part `p` of their points. -/
theorem cma_nonce (hA : A.NoRepeat) (np : P → M → X) (hnp : ∀ p, Function.Injective (np p))
    (hdis : ∀ p m m' v, pt m v ≠ np p m') (hone : ∀ p p' m m', np p m = np p' m' → p = p')
    (win : (X → V) → List (V ⊕ Sg) → Prop)
    (hwin : ∀ p f f' l, (∀ x, (∀ m, x ≠ np p m) → f x = f' x) → win f l → win f' l) (k : ℕ) :
    (univ.filter fun q : P × (X → V) => win q.2 (A.play q.2 (byHash pt sig (np q.1) q.2) k)).card * Fintype.card V ^ k ≤
      Fintype.card P * (univ.filter fun q : (X → V) × (Fin k → V) => win q.1 (A.play q.1 (byDraw pt sig q.1 (pad q.2)) k)).card +
        k * (Fintype.card (X → V) * Fintype.card V ^ k) := by
  let Φ : (P × (X → V)) × (Fin k → V) → P × ((X → V) × (Fin k → V)) := fun q =>
    (q.1.1, (nonceRel_exists pt sig hA (hnp q.1.1) (hdis q.1.1) q.1.2 q.2).choose,
      (nonceRel_exists pt sig hA (hnp q.1.1) (hdis q.1.1) q.1.2 q.2).choose_spec.choose)
  have hΦ : ∀ q, NonceRel pt sig A (np q.1.1) q.1.2 q.2 (Φ q).2.1 (Φ q).2.2 := fun q =>
    (nonceRel_exists pt sig hA (hnp q.1.1) (hdis q.1.1) q.1.2 q.2).choose_spec.choose_spec
  have hinj : Function.Injective Φ := by
    rintro ⟨⟨p, f⟩, e⟩ ⟨⟨p', f₂⟩, e₂⟩ h
    obtain rfl : p = p' := congrArg Prod.fst h
    have h1 := hΦ ((p, f), e)
    rw [h] at h1
    obtain ⟨rfl, rfl⟩ := h1.inj pt sig (hΦ ((p, f₂), e₂))
    rfl
  set R := univ.filter fun q : P × (X → V) => win q.2 (A.play q.2 (byHash pt sig (np q.1) q.2) k) with hR
  set R1 := univ.filter fun q : (X → V) × (Fin k → V) => win q.1 (A.play q.1 (byDraw pt sig q.1 (pad q.2)) k) with hR1
  set H := univ.filter fun q : P × ((X → V) × (Fin k → V)) =>
    ¬ Live A (np q.1) (A.play q.2.1 (byDraw pt sig q.2.1 (pad q.2.2))) k with hH
  have hcard : (R ×ˢ (univ : Finset (Fin k → V))).card = R.card * Fintype.card V ^ k := by
    rw [card_product, card_univ, Fintype.card_fun, Fintype.card_fin]
  have hsub : ((R ×ˢ (univ : Finset (Fin k → V))).image Φ) ⊆ ((univ : Finset P) ×ˢ R1) ∪ H := by
    intro y hy
    obtain ⟨q, hq, rfl⟩ := mem_image.1 hy
    have hw : win q.1.2 (A.play q.1.2 (byHash pt sig (np q.1.1) q.1.2) k) := (mem_filter.1 (mem_product.1 hq).1).2
    by_cases hl : Live A (np (Φ q).1) (A.play (Φ q).2.1 (byDraw pt sig (Φ q).2.1 (pad (Φ q).2.2))) k
    · refine mem_union_left _ (mem_product.2 ⟨mem_univ _, mem_filter.2 ⟨mem_univ _, ?_⟩⟩)
      rw [(hΦ q).run k le_rfl hl] at hw
      refine hwin q.1.1 _ _ _ (fun x hx => ((hΦ q).off x fun i m _ _ h => hx m h.symm).symm) hw
    · exact mem_union_right _ (mem_filter.2 ⟨mem_univ _, hl⟩)
  have hHc : H.card ≤ k * (Fintype.card (X → V) * Fintype.card V ^ k) := by
    have h1 : H.card = ∑ q : (X → V) × (Fin k → V), (univ.filter fun p : P =>
        ¬ Live A (np p) (A.play q.1 (byDraw pt sig q.1 (pad q.2))) k).card := by
      simp only [hH, card_filter]
      rw [Fintype.sum_prod_type, sum_comm]
    have h2 : ∀ q : (X → V) × (Fin k → V), (univ.filter fun p : P =>
        ¬ Live A (np p) (A.play q.1 (byDraw pt sig q.1 (pad q.2))) k).card ≤ k := by
      intro q
      have hs : (univ.filter fun p : P => ¬ Live A (np p) (A.play q.1 (byDraw pt sig q.1 (pad q.2))) k) ⊆
          (range k).biUnion fun j => univ.filter fun p : P => ∃ m, A.act (A.play q.1 (byDraw pt sig q.1 (pad q.2)) j) = .inl (np p m) := by
        intro p hp
        have hp := (mem_filter.1 hp).2
        unfold Live at hp
        push Not at hp
        obtain ⟨j, hj, m, h⟩ := hp
        exact mem_biUnion.2 ⟨j, mem_range.2 hj, mem_filter.2 ⟨mem_univ _, m, h⟩⟩
      refine (card_le_card hs).trans (card_biUnion_le.trans ?_)
      refine (sum_le_card_nsmul _ _ 1 fun j _ => ?_).trans (by simp)
      rw [card_le_one]
      intro p hp p' hp'
      obtain ⟨m, h⟩ := (mem_filter.1 hp).2
      obtain ⟨m', h'⟩ := (mem_filter.1 hp').2
      exact hone p p' m m' (Sum.inl.inj (h.symm.trans h'))
    rw [h1]
    refine (sum_le_card_nsmul _ _ k fun q _ => h2 q).trans (le_of_eq ?_)
    rw [card_univ, Fintype.card_prod, Fintype.card_fun (α := Fin k), Fintype.card_fin, smul_eq_mul, mul_comm]
  calc R.card * Fintype.card V ^ k = ((R ×ˢ (univ : Finset (Fin k → V))).image Φ).card := by
        rw [card_image_of_injective _ hinj, hcard]
    _ ≤ (((univ : Finset P) ×ˢ R1) ∪ H).card := card_le_card hsub
    _ ≤ ((univ : Finset P) ×ˢ R1).card + H.card := card_union_le _ _
    _ ≤ _ := by rw [card_product, card_univ]; exact Nat.add_le_add_left hHc _

end Nonce

/-! ### The simulation -/

/-- One step of a simulation: signatures are made up from a response `s i` and a challenge `c i`, and the table is programmed to return
this challenge. -/
def Spec.cmaStep [DecidableEq X] (A : Spec.Attacker X V M Sg) (spt : M → S → V → X) (ssig : M → S → V → Sg) (s : ℕ → S) (c : ℕ → V)
    (st : List (V ⊕ Sg) × List (X × V)) (a : V) : List (V ⊕ Sg) × List (X × V) :=
  match A.act st.1 with
  | .inl x => (st.1 ++ [.inl ((st.2.lookup x).getD a)], st.2)
  | .inr m => (st.1 ++ [.inr (ssig m (s st.1.length) (c st.1.length))],
      (spt m (s st.1.length) (c st.1.length), c st.1.length) :: st.2)

/-- The simulation, from the answers of the table. -/
def Spec.cmaState [DecidableEq X] (A : Spec.Attacker X V M Sg) (spt : M → S → V → X) (ssig : M → S → V → Sg) (s : ℕ → S) (c : ℕ → V)
    (l : List V) : List (V ⊕ Sg) × List (X × V) :=
  l.foldl (Spec.cmaStep A spt ssig s c) ([], [])

/-- The look-ups of the simulation (a dummy one when a signature is asked for). -/
def Spec.cmaQuery [DecidableEq X] (A : Spec.Attacker X V M Sg) (spt : M → S → V → X) (ssig : M → S → V → Sg) (x0 : X) (s : ℕ → S) (c : ℕ → V)
    (l : List V) : X :=
  match A.act (Spec.cmaState A spt ssig s c l).1 with
  | .inl x => x
  | .inr _ => x0

/-- The replies of the simulation when the table is `f`. -/
def Spec.cmaRun [DecidableEq X] (A : Spec.Attacker X V M Sg) (spt : M → S → V → X) (ssig : M → S → V → Sg) (x0 : X) (s : ℕ → S) (c : ℕ → V)
    (f : X → V) (k : ℕ) : List (V ⊕ Sg) :=
  (Spec.cmaState A spt ssig s c (Spec.answers (Spec.cmaQuery A spt ssig x0 s c) f k)).1

section Sim

variable (pt : M → V → X) (sig : M → V → V → Sg) (spt : M → S → V → X) (ssig : M → S → V → Sg) (τ : V → V → S) (κ : V → Q)

/-- The point of a signature was looked up before. -/
def CmaBad (A : Spec.Attacker X V M Sg) (f : X → V) (n : ℕ → V) (k : ℕ) : Prop :=
  ∃ i < k, ∃ m, A.act (A.play f (byDraw pt sig f n) i) = .inr m ∧
    ∃ j < i, A.act (A.play f (byDraw pt sig f n) j) = .inl (pt m (n i))

theorem cma_run [DecidableEq X] (hpt : ∀ m n c, spt m (τ n c) c = pt m n) (hsig : ∀ m n c, ssig m (τ n c) c = sig m n c)
    (x0 : X) {f f' : X → V} {n : ℕ → V} {s : ℕ → S} {c : ℕ → V} {k : ℕ}
    (hbad : ¬ CmaBad pt sig A f n k) (hs : ∀ i < k, s i = τ (n i) (c i))
    (hc : ∀ i < k, ∀ m, A.act (A.play f (byDraw pt sig f n) i) = .inr m → c i = f (pt m (n i)))
    (hf : ∀ y, (∀ i < k, ∀ m, A.act (A.play f (byDraw pt sig f n) i) = .inr m → pt m (n i) ≠ y) → f' y = f y) (i : ℕ) (hi : i ≤ k) :
    ∃ pr, cmaState A spt ssig s c (answers (cmaQuery A spt ssig x0 s c) f' i) = (A.play f (byDraw pt sig f n) i, pr) ∧
      (∀ e ∈ pr, e.2 = f e.1) ∧
      ∀ j < i, ∀ m, A.act (A.play f (byDraw pt sig f n) j) = .inr m → ∃ e ∈ pr, e.1 = pt m (n j) := by
  induction i with
  | zero => exact ⟨[], rfl, by simp, by simp⟩
  | succ i ih =>
    obtain ⟨pr, e, hp, hq⟩ := ih (by omega)
    set g := A.play f (byDraw pt sig f n) with hg
    have estep : cmaState A spt ssig s c (answers (cmaQuery A spt ssig x0 s c) f' (i + 1)) =
        cmaStep A spt ssig s c (g i, pr) (f' (cmaQuery A spt ssig x0 s c (answers (cmaQuery A spt ssig x0 s c) f' i))) := by
      rw [answers, cmaState, List.foldl_append, List.foldl_cons, List.foldl_nil]
      rw [show List.foldl (cmaStep A spt ssig s c) ([], []) _ = _ from e]
    rw [estep]
    have hgs : g (i + 1) = g i ++ [match A.act (g i) with | .inl x => .inl (f x) | .inr m => .inr (byDraw pt sig f n i m)] := rfl
    have hlen : (g i).length = i := play_length ..
    rcases hact : A.act (g i) with x | m
    · have hx : cmaQuery A spt ssig x0 s c (answers (cmaQuery A spt ssig x0 s c) f' i) = x := by
        rw [cmaQuery, e]
        simp only [hact]
      refine ⟨pr, ?_, hp, ?_⟩
      · rw [hx, hgs]
        simp only [cmaStep, hact]
        congr 4
        rcases hl : pr.lookup x with _ | v
        · simp only [Option.getD_none]
          apply hf
          intro j hj m hmj hpt'
          rcases lt_trichotomy j i with h | h | h
          · obtain ⟨e', he', hk⟩ := hq j h m hmj
            exact lookup_none hl e' he' (by rw [hk, hpt'])
          · subst h
            rw [hact] at hmj
            cases hmj
          · refine hbad ⟨j, hj, m, hmj, i, h, ?_⟩
            rw [hpt']
            exact hact
        · simp only [Option.getD_some]
          exact hp _ (lookup_mem hl)
      · intro j hj m hmj
        rcases Nat.lt_succ_iff_lt_or_eq.1 hj with h | h
        · exact hq j h m hmj
        · subst h
          rw [hact] at hmj
          cases hmj
    · have hst : cmaStep A spt ssig s c (g i, pr) (f' (cmaQuery A spt ssig x0 s c (answers (cmaQuery A spt ssig x0 s c) f' i))) =
          (g i ++ [.inr (sig m (n i) (c i))], (pt m (n i), c i) :: pr) := by
        simp only [cmaStep, hact, hlen, hs i (by omega), hpt, hsig]
      refine ⟨(pt m (n i), c i) :: pr, ?_, ?_, ?_⟩
      · rw [hst, hgs]
        simp only [hact, byDraw, hc i (by omega) m hact]
      · intro e' he'
        rcases List.mem_cons.1 he' with rfl | he'
        · exact hc i (by omega) m hact
        · exact hp e' he'
      · intro j hj m' hmj
        rcases Nat.lt_succ_iff_lt_or_eq.1 hj with h | h
        · obtain ⟨e', he', hk⟩ := hq j h m' hmj
          exact ⟨e', List.mem_cons_of_mem _ he', hk⟩
        · subst h
          obtain rfl := Sum.inr.inj (hact.symm.trans hmj)
          exact ⟨_, List.mem_cons_self .., rfl⟩

/-- The responses, challenges and table that belong to the draws `n`, the table `f` and the spare values `e`. -/
structure SimRel [Nonempty V] [Nonempty S] [DecidableEq X] {k : ℕ} (A : Spec.Attacker X V M Sg) (x0 : X) (f : X → V) (n e : Fin k → V)
    (s : Fin k → S) (c : Fin k → V) (f' : X → V) : Prop where
  run : cmaRun A spt ssig x0 (pad s) (pad c) f' k = A.play f (byDraw pt sig f (pad n)) k
  resp : ∀ i, s i = τ (n i) (c i)
  at_ : ∀ (i : Fin k) (m : M), A.act (A.play f (byDraw pt sig f (pad n)) i) = .inr m → c i = f (pt m (n i)) ∧ f' (pt m (n i)) = e i
  spare : ∀ i : Fin k, (∀ m, A.act (A.play f (byDraw pt sig f (pad n)) i) ≠ .inr m) → c i = e i
  off : ∀ y, (∀ (i : Fin k) (m : M), A.act (A.play f (byDraw pt sig f (pad n)) i) = .inr m → pt m (n i) ≠ y) → f' y = f y

variable {pt sig spt ssig τ}

theorem SimRel.inj [Nonempty V] [Nonempty S] [DecidableEq X] {k : ℕ} {x0 : X} {f f₂ : X → V} {n n₂ e e₂ : Fin k → V} {s : Fin k → S}
    {c : Fin k → V} {f' : X → V} (hτ : ∀ n n' c, τ n c = τ n' c → κ n = κ n' → n = n')
    (h : SimRel pt sig spt ssig τ A x0 f n e s c f') (h₂ : SimRel pt sig spt ssig τ A x0 f₂ n₂ e₂ s c f') (hκ : ∀ i, κ (n i) = κ (n₂ i)) :
    f = f₂ ∧ n = n₂ ∧ e = e₂ := by
  have hn : n = n₂ := by
    funext i
    exact hτ _ _ (c i) ((h.resp i).symm.trans (h₂.resp i)) (hκ i)
  subst hn
  have hk := h.run.symm.trans h₂.run
  have hr : ∀ i : Fin k, A.play f (byDraw pt sig f (pad n)) i = A.play f₂ (byDraw pt sig f₂ (pad n)) i := by
    intro i
    have := congrArg (List.take i) hk
    rwa [play_take _ _ _ i.2.le, play_take _ _ _ i.2.le] at this
  refine ⟨?_, rfl, ?_⟩
  · funext y
    by_cases hy : ∃ (i : Fin k) (m : M), A.act (A.play f (byDraw pt sig f (pad n)) i) = .inr m ∧ pt m (n i) = y
    · obtain ⟨i, m, hi, rfl⟩ := hy
      rw [← (h.at_ i m hi).1, ← (h₂.at_ i m (by rw [← hr]; exact hi)).1]
    · have h1 : ∀ (i : Fin k) (m : M), A.act (A.play f (byDraw pt sig f (pad n)) i) = .inr m → pt m (n i) ≠ y :=
        fun i m hi he => hy ⟨i, m, hi, he⟩
      rw [← h.off y h1, ← h₂.off y fun i m hi => h1 i m (by rw [hr]; exact hi)]
  · funext i
    by_cases hi : ∃ m, A.act (A.play f (byDraw pt sig f (pad n)) i) = .inr m
    · obtain ⟨m, hi⟩ := hi
      rw [← (h.at_ i m hi).2, ← (h₂.at_ i m (by rw [← hr]; exact hi)).2]
    · have h1 : ∀ m, A.act (A.play f (byDraw pt sig f (pad n)) i) ≠ .inr m := fun m hm => hi ⟨m, hm⟩
      rw [← h.spare i h1, ← h₂.spare i fun m => by rw [← hr]; exact h1 m]

theorem simRel_exists [Nonempty V] [Nonempty S] [DecidableEq X] {k : ℕ} (hA : A.NoRepeat) (hpt : ∀ m n c, spt m (τ n c) c = pt m n)
    (hsig : ∀ m n c, ssig m (τ n c) c = sig m n c) (hm : ∀ m m' n n', pt m n = pt m' n' → m = m') (x0 : X) (f : X → V) (n e : Fin k → V)
    (hbad : ¬ CmaBad pt sig A f (pad n) k) : ∃ s c f', SimRel pt sig spt ssig τ A x0 f n e s c f' := by
  classical
  set g := A.play f (byDraw pt sig f (pad n)) with hg
  let c : Fin k → V := fun i => if h : ∃ m, A.act (g i) = .inr m then f (pt h.choose (n i)) else e i
  let f' : X → V := fun y => if h : ∃ i : Fin k, ∃ m, A.act (g i) = .inr m ∧ pt m (n i) = y then e h.choose else f y
  have hc : ∀ (i : Fin k) (m : M), A.act (g i) = .inr m → c i = f (pt m (n i)) := by
    intro i m ha
    have h : ∃ m, A.act (g i) = .inr m := ⟨m, ha⟩
    show (if h : _ then _ else _) = _
    rw [dif_pos h, Sum.inr.inj (h.choose_spec.symm.trans ha)]
  have hf' : ∀ (i : Fin k) (m : M), A.act (g i) = .inr m → f' (pt m (n i)) = e i := by
    intro i m ha
    have h : ∃ j : Fin k, ∃ m', A.act (g j) = .inr m' ∧ pt m' (n j) = pt m (n i) := ⟨i, m, ha, rfl⟩
    show (if h : _ then _ else _) = _
    rw [dif_pos h]
    congr 1
    obtain ⟨m', ha', he⟩ := h.choose_spec
    obtain rfl := hm _ _ _ _ he
    exact Fin.ext (hA.eq ha' ha)
  have hoff : ∀ y, (∀ (i : Fin k) (m : M), A.act (g i) = .inr m → pt m (n i) ≠ y) → f' y = f y := by
    intro y hy
    refine dif_neg ?_
    rintro ⟨i, m, ha, h⟩
    exact hy i m ha h
  refine ⟨fun i => τ (n i) (c i), c, f', ?_, fun _ => rfl, fun i m ha => ⟨hc i m ha, hf' i m ha⟩, ?_, hoff⟩
  · obtain ⟨pr, h, -⟩ := cma_run pt sig spt ssig τ hpt hsig x0 (f' := f') (s := pad fun i => τ (n i) (c i)) (c := pad c) hbad
      (fun i hi => by rw [pad_lt _ hi, pad_lt _ hi, pad_lt _ hi])
      (fun i hi m ha => by rw [pad_lt _ hi, pad_lt _ hi]; exact hc ⟨i, hi⟩ m ha)
      (fun y hy => hoff y fun i m ha => by have := hy i i.2 m ha; rwa [pad_fin] at this) k le_rfl
    exact congrArg Prod.fst h
  · intro i hi
    refine dif_neg ?_
    rintro ⟨m, ha⟩
    exact hi m ha

variable [Fintype X] [DecidableEq X] [Fintype V] [Nonempty V] [Fintype S] [Nonempty S] [Fintype Q]

open Classical in
/-- For few draws the point of a signature was looked up before. -/
theorem cmaBad_card (b : ℕ) (hb : ∀ m x, (univ.filter fun n : V => pt m n = x).card ≤ b) (f : X → V) (k : ℕ) :
    (univ.filter fun n : Fin k → V => CmaBad pt sig A f (pad n) k).card * Fintype.card V ≤ k ^ 2 * b * Fintype.card V ^ k := by
  let B : Fin k × Fin k → (Fin k → V) → Prop := fun q n => q.2 < q.1 ∧ ∃ m,
    A.act (A.play f (byDraw pt sig f (pad n)) q.1) = .inr m ∧ A.act (A.play f (byDraw pt sig f (pad n)) q.2) = .inl (pt m (n q.1))
  have hB : ∀ q, (univ.filter (B q)).card * Fintype.card V ≤ b * Fintype.card V ^ k := by
    rintro ⟨i, j⟩
    have := card_fibre_le i (B (i, j)) b ?_
    · rwa [Fintype.card_fun, Fintype.card_fin] at this
    intro n
    by_cases hex : ∃ x, B (i, j) (Function.update n i x)
    · obtain ⟨y, hji, m, hy1, hy2⟩ := hex
      have hrun : ∀ x, ∀ l ≤ (i : ℕ), A.play f (byDraw pt sig f (pad (Function.update n i x))) l =
          A.play f (byDraw pt sig f (pad (Function.update n i y))) l := by
        intro x l hl
        refine play_congr A (fun _ _ _ _ => rfl) fun a ha m' _ => ?_
        have hak : a < k := by omega
        have hne : (⟨a, hak⟩ : Fin k) ≠ i := fun he => by
          have := congrArg Fin.val he
          simp only at this
          omega
        simp only [byDraw, pad_lt _ hak, Function.update_of_ne hne]
      refine (card_le_card ?_).trans (hb m (pt m y))
      intro x hx
      obtain ⟨-, m', hx1, hx2⟩ := (mem_filter.1 hx).2
      simp only at hx1 hx2 hy1 hy2
      rw [hrun x _ le_rfl] at hx1
      rw [hrun x _ (le_of_lt hji)] at hx2
      obtain rfl := Sum.inr.inj (hx1.symm.trans hy1)
      have := Sum.inl.inj (hx2.symm.trans hy2)
      rw [Function.update_self, Function.update_self] at this
      exact mem_filter.2 ⟨mem_univ _, this⟩
    · rw [filter_false_of_mem fun x _ hx => hex ⟨x, hx⟩, card_empty]
      exact Nat.zero_le _
  have hsub : (univ.filter fun n : Fin k → V => CmaBad pt sig A f (pad n) k) ⊆ univ.biUnion fun q : Fin k × Fin k => univ.filter (B q) := by
    intro n hn
    obtain ⟨i, hi, m, hm, j, hj, h⟩ := (mem_filter.1 hn).2
    refine mem_biUnion.2 ⟨(⟨i, hi⟩, ⟨j, by omega⟩), mem_univ _, mem_filter.2 ⟨mem_univ _, hj, m, hm, ?_⟩⟩
    rw [pad_lt _ hi] at h
    exact h
  calc _ ≤ (univ.biUnion fun q : Fin k × Fin k => univ.filter (B q)).card * Fintype.card V := Nat.mul_le_mul_right _ (card_le_card hsub)
    _ ≤ (∑ q : Fin k × Fin k, (univ.filter (B q)).card) * Fintype.card V := Nat.mul_le_mul_right _ card_biUnion_le
    _ = ∑ q : Fin k × Fin k, (univ.filter (B q)).card * Fintype.card V := by rw [sum_mul]
    _ ≤ ∑ _q : Fin k × Fin k, b * Fintype.card V ^ k := sum_le_sum fun q _ => hB q
    _ = _ := by
      rw [sum_const, card_univ, Fintype.card_prod, Fintype.card_fin, smul_eq_mul]
      ring

open Classical in
/-- The signer may be replaced by the simulation, up to look-ups that guess the point of a later signature. -/
theorem cma_sim (hA : A.NoRepeat) (hpt : ∀ m n c, spt m (τ n c) c = pt m n) (hsig : ∀ m n c, ssig m (τ n c) c = sig m n c)
    (hτ : ∀ n n' c, τ n c = τ n' c → κ n = κ n' → n = n') (hm : ∀ m m' n n', pt m n = pt m' n' → m = m') (b : ℕ)
    (hb : ∀ m x, (univ.filter fun n : V => pt m n = x).card ≤ b) (x0 : X) (win : (X → V) → List (V ⊕ Sg) → Prop)
    (hwin : ∀ f f' l, (∀ x, (∀ m v, A.Asked l m → x ≠ pt m v) → f x = f' x) → win f l → win f' l) (k : ℕ) :
    Fintype.card V * ((univ.filter fun q : (X → V) × (Fin k → V) => win q.1 (A.play q.1 (byDraw pt sig q.1 (pad q.2)) k)).card *
        Fintype.card V ^ k) ≤
      Fintype.card V * (Fintype.card Q ^ k * (univ.filter fun q : ((Fin k → S) × (Fin k → V)) × (X → V) =>
        win q.2 (cmaRun A spt ssig x0 (pad q.1.1) (pad q.1.2) q.2 k)).card) +
      k ^ 2 * b * (Fintype.card (X → V) * Fintype.card V ^ k * Fintype.card V ^ k) := by
  set R := univ.filter fun q : (X → V) × (Fin k → V) => win q.1 (A.play q.1 (byDraw pt sig q.1 (pad q.2)) k) with hR
  set T := univ.filter fun q : ((Fin k → S) × (Fin k → V)) × (X → V) =>
        win q.2 (cmaRun A spt ssig x0 (pad q.1.1) (pad q.1.2) q.2 k) with hT
  let bad : (X → V) × (Fin k → V) → Prop := fun p => CmaBad pt sig A p.1 (pad p.2) k
  let B := univ.filter bad
  have hB : B.card * Fintype.card V ≤ k ^ 2 * b * (Fintype.card (X → V) * Fintype.card V ^ k) := by
    have : B.card = ∑ f : X → V, (univ.filter fun n => bad (f, n)).card := by
      simp only [B, card_filter, Fintype.sum_prod_type]
    rw [this, sum_mul]
    calc _ ≤ ∑ _f : X → V, k ^ 2 * b * Fintype.card V ^ k := sum_le_sum fun f _ => cmaBad_card b hb f k
      _ = _ := by
        rw [sum_const, card_univ, smul_eq_mul]
        ring
  have hRB : R.card ≤ (R.filter fun p => ¬ bad p).card + B.card := by
    rw [← card_filter_add_card_filter_not (s := R) bad, add_comm]
    refine Nat.add_le_add_left (card_le_card ?_) _
    intro p hp
    exact mem_filter.2 ⟨mem_univ _, (mem_filter.1 hp).2⟩
  let E := ((R.filter fun p => ¬ bad p) ×ˢ (univ : Finset (Fin k → V)))
  have hE : E.card = (R.filter fun p => ¬ bad p).card * Fintype.card V ^ k := by
    rw [card_product, card_univ, Fintype.card_fun, Fintype.card_fin]
  have hrel : ∀ p : ((X → V) × (Fin k → V)) × (Fin k → V), ∃ q : ((Fin k → S) × (Fin k → V)) × (X → V), ¬ bad p.1 →
      SimRel pt sig spt ssig τ A x0 p.1.1 p.1.2 p.2 q.1.1 q.1.2 q.2 := by
    intro p
    by_cases hb : bad p.1
    · exact ⟨((fun _ => Classical.arbitrary S, p.2), p.1.1), fun h => absurd hb h⟩
    · obtain ⟨s, c, f', h⟩ := simRel_exists hA hpt hsig hm x0 p.1.1 p.1.2 p.2 hb
      exact ⟨((s, c), f'), fun _ => h⟩
  choose φ hφ using hrel
  have hET : E.card ≤ ((univ : Finset (Fin k → Q)) ×ˢ T).card := by
    refine card_le_card_of_injOn (fun p => (fun i => κ (p.1.2 i), φ p)) ?_ ?_
    · intro p hp
      have hp := mem_filter.1 (mem_product.1 (mem_coe.1 hp)).1
      have hw := (mem_filter.1 hp.1).2
      have h := hφ p hp.2
      refine mem_coe.2 (mem_product.2 ⟨mem_univ _, mem_filter.2 ⟨mem_univ _, ?_⟩⟩)
      show win (φ p).2 (cmaRun A spt ssig x0 (pad (φ p).1.1) (pad (φ p).1.2) (φ p).2 k)
      rw [h.run]
      refine hwin _ _ _ (fun x hx => (h.off x fun i m ha he => ?_).symm) hw
      exact hx m _ (asked_play i.2 ha) he.symm
    · intro p hp p' hp' h
      have hp := (mem_filter.1 (mem_product.1 (mem_coe.1 hp)).1).2
      have hp' := (mem_filter.1 (mem_product.1 (mem_coe.1 hp')).1).2
      have h1 := congrArg Prod.fst h
      have h2 : φ p = φ p' := congrArg Prod.snd h
      have r := hφ p hp
      rw [h2] at r
      obtain ⟨e1, e2, e3⟩ := r.inj κ hτ (hφ p' hp') fun i => congrFun h1 i
      exact Prod.ext (Prod.ext e1 e2) e3
  have hQ : ((univ : Finset (Fin k → Q)) ×ˢ T).card = Fintype.card Q ^ k * T.card := by
    rw [card_product, card_univ, Fintype.card_fun, Fintype.card_fin]
  rw [hQ] at hET
  calc _ ≤ Fintype.card V * (((R.filter fun p => ¬ bad p).card + B.card) * Fintype.card V ^ k) :=
        Nat.mul_le_mul_left _ (Nat.mul_le_mul_right _ hRB)
    _ = Fintype.card V * E.card + (B.card * Fintype.card V) * Fintype.card V ^ k := by rw [hE]; ring
    _ ≤ Fintype.card V * (Fintype.card Q ^ k * T.card) + (k ^ 2 * b * (Fintype.card (X → V) * Fintype.card V ^ k)) * Fintype.card V ^ k :=
        Nat.add_le_add (Nat.mul_le_mul_left _ hET) (Nat.mul_le_mul_right _ hB)
    _ = _ := by ring

end Sim

/-! ### Asking every message once -/

open Classical in
/-- The replies with the repeated ones filled in. -/
noncomputable def Spec.Attacker.expand (A : Spec.Attacker X V M Sg) (l : List (V ⊕ Sg)) : List (V ⊕ Sg) :=
  l.foldl (fun acc v => acc ++ [match A.act acc with
    | .inl _ => v
    | .inr m => if h : A.Asked acc m then acc[h.choose]?.getD v else v]) []

open Classical in
/-- The attacker that remembers signatures; in place of a repeated request it looks up `x0`. -/
noncomputable def Spec.Attacker.once (A : Spec.Attacker X V M Sg) (x0 : X) : Spec.Attacker X V M Sg where
  act l := match A.act (A.expand l) with
    | .inl x => .inl x
    | .inr m => if A.Asked (A.expand l) m then .inl x0 else .inr m

section Once

variable (A)

open Classical in
theorem expand_append (l : List (V ⊕ Sg)) (v : V ⊕ Sg) : A.expand (l ++ [v]) = A.expand l ++ [match A.act (A.expand l) with
    | .inl _ => v
    | .inr m => if h : A.Asked (A.expand l) m then (A.expand l)[h.choose]?.getD v else v] := by
  rw [Attacker.expand, List.foldl_append, List.foldl_cons, List.foldl_nil]
  rfl

theorem expand_length (l : List (V ⊕ Sg)) : (A.expand l).length = l.length := by
  induction l using List.reverseRecOn with
  | nil => rfl
  | append_singleton l v ih => simp only [expand_append, List.length_append, List.length_singleton, ih]

theorem expand_take (l : List (V ⊕ Sg)) {j : ℕ} (h : j ≤ l.length) : (A.expand l).take j = A.expand (l.take j) := by
  induction l using List.reverseRecOn with
  | nil =>
    obtain rfl : j = 0 := by simpa using h
    rfl
  | append_singleton l v ih =>
    rcases Nat.lt_or_ge l.length j with hj | hj
    · rw [List.take_of_length_le (by rw [expand_length, List.length_append]; exact hj),
        List.take_of_length_le (by rw [List.length_append]; exact hj)]
    · rw [expand_append, List.take_append_of_le_length (by rw [expand_length]; exact hj), ih hj, List.take_append_of_le_length hj]

variable {A} in
theorem once_inr {x0 : X} {l : List (V ⊕ Sg)} {m : M} (h : (A.once x0).act l = .inr m) :
    A.act (A.expand l) = .inr m ∧ ¬ A.Asked (A.expand l) m := by
  classical
  simp only [Attacker.once] at h
  rcases ha : A.act (A.expand l) with x | m' <;> rw [ha] at h
  · cases h
  · simp only at h
    split at h
    · cases h
    · rename_i hn
      obtain rfl := Sum.inr.inj h
      exact ⟨rfl, hn⟩

variable {A} in
theorem once_asked {x0 : X} {l : List (V ⊕ Sg)} {m : M} (h : (A.once x0).Asked l m) : A.Asked (A.expand l) m := by
  obtain ⟨j, hj, h⟩ := h
  refine ⟨j, by rw [expand_length]; exact hj, ?_⟩
  rw [expand_take _ _ hj.le]
  exact (once_inr h).1

theorem once_noRepeat (x0 : X) : (A.once x0).NoRepeat := fun _ _ h h' => (once_inr h).2 (once_asked h')

theorem play_getElem (f : X → V) (sgn : ℕ → M → Sg) {i j : ℕ} (h : j < i) {m : M} (hj : A.act (A.play f sgn j) = .inr m) :
    (A.play f sgn i)[j]? = some (.inr (sgn j m)) := by
  have h1 : ((A.play f sgn i).take (j + 1))[j]? = (A.play f sgn i)[j]? := by
    rw [List.getElem?_take, if_pos (Nat.lt_succ_self j)]
  rw [← h1, play_take A f sgn h, Attacker.play, List.getElem?_append_right (by rw [play_length]), play_length, Nat.sub_self]
  simp only [hj, List.getElem?_cons_zero]

/-- A signer that always gives the same reply need not be asked twice. -/
theorem play_once (x0 : X) (f : X → V) (sgn : M → Sg) (i : ℕ) :
    A.expand ((A.once x0).play f (fun _ => sgn) i) = A.play f (fun _ => sgn) i := by
  classical
  induction i with
  | zero => rfl
  | succ i ih =>
    rw [Attacker.play, expand_append, ih, Attacker.play]
    congr 2
    have hact : (A.once x0).act ((A.once x0).play f (fun _ => sgn) i) = match A.act (A.play f (fun _ => sgn) i) with
        | .inl x => .inl x
        | .inr m => if A.Asked (A.play f (fun _ => sgn) i) m then .inl x0 else .inr m := by
      rw [← ih]
      rfl
    rw [hact]
    rcases ha : A.act (A.play f (fun _ => sgn) i) with x | m
    · rfl
    · simp only
      by_cases hm : A.Asked (A.play f (fun _ => sgn) i) m
      · rw [dif_pos hm]
        obtain ⟨hj, h⟩ := hm.choose_spec
        have hj : hm.choose < i := hj.trans_eq (play_length ..)
        rw [play_take A f _ hj.le] at h
        rw [play_getElem A f _ hj h]
        rfl
      · rw [dif_neg hm, if_neg hm]

end Once

end Verif
