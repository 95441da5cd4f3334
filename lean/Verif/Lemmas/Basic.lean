import Verif.Model.Laws

/-! Auxiliary lemmas on `Res`, loops, indexing, scalar multiplication. -/

namespace Verif
namespace Res
variable {ε ε' α β : Type}

@[simp] theorem bind_ok' (a : α) (f : α → Res ε β) : (Res.ok a >>= f) = f a := rfl
@[simp] theorem bind_err' (e : ε) (f : α → Res ε β) : (Res.err e >>= f) = .err e := rfl
@[simp] theorem bind_panic' (f : α → Res ε β) : ((Res.panic : Res ε α) >>= f) = .panic := rfl
@[simp] theorem bind_diverge' (f : α → Res ε β) : ((Res.diverge : Res ε α) >>= f) = .diverge := rfl
@[simp] theorem pure_eq (a : α) : (pure a : Res ε α) = .ok a := rfl

theorem bind_eq_ok {x : Res ε α} {f : α → Res ε β} {b : β} :
    (x >>= f) = .ok b ↔ ∃ a, x = .ok a ∧ f a = .ok b := by
  cases x <;> simp

theorem bind_eq_err {x : Res ε α} {f : α → Res ε β} {e : ε} :
    (x >>= f) = .err e ↔ x = .err e ∨ ∃ a, x = .ok a ∧ f a = .err e := by
  cases x <;> simp

theorem bind_eq_panic {x : Res ε α} {f : α → Res ε β} :
    (x >>= f) = .panic ↔ x = .panic ∨ ∃ a, x = .ok a ∧ f a = .panic := by
  cases x <;> simp

@[simp] theorem unwrap_ok (a : α) : ((Res.ok a : Res ε α).unwrap : Res ε' α) = .ok a := rfl
@[simp] theorem unwrap_err (e : ε) : ((Res.err e : Res ε α).unwrap : Res ε' α) = .panic := rfl
@[simp] theorem unwrap_panic : ((Res.panic : Res ε α).unwrap : Res ε' α) = .panic := rfl
@[simp] theorem unwrap_diverge : ((Res.diverge : Res ε α).unwrap : Res ε' α) = .diverge := rfl
@[simp] theorem orErr_ok (a : α) (e' : ε') : (Res.ok a : Res ε α).orErr e' = .ok a := rfl
@[simp] theorem orErr_err (e : ε) (e' : ε') : (Res.err e : Res ε α).orErr e' = .err e' := rfl
@[simp] theorem orErr_panic (e' : ε') : (Res.panic : Res ε α).orErr e' = .panic := rfl
@[simp] theorem orErr_diverge (e' : ε') : (Res.diverge : Res ε α).orErr e' = .diverge := rfl
@[simp] theorem ofOption_some (a : α) (e : ε) : Res.ofOption (some a) e = .ok a := rfl
@[simp] theorem ofOption_none (e : ε) : Res.ofOption (none : Option α) e = .err e := rfl
@[simp] theorem unwrapOpt_some (a : α) : (Res.unwrapOpt (some a) : Res ε α) = .ok a := rfl
@[simp] theorem unwrapOpt_none : (Res.unwrapOpt (none : Option α) : Res ε α) = .panic := rfl

theorem unwrap_eq_ok {x : Res ε α} {a : α} : (x.unwrap : Res ε' α) = .ok a ↔ x = .ok a := by
  cases x <;> simp [unwrap]
theorem unwrap_ne_err {x : Res ε α} {e : ε'} : (x.unwrap : Res ε' α) ≠ .err e := by
  cases x <;> simp [unwrap]
theorem orErr_eq_ok {x : Res ε α} {e' : ε'} {a : α} : x.orErr e' = .ok a ↔ x = .ok a := by
  cases x <;> simp [orErr]
theorem orErr_eq_err {x : Res ε α} {e' e'' : ε'} : x.orErr e' = .err e'' ↔ (∃ e, x = .err e) ∧ e' = e'' := by
  cases x <;> simp [orErr]
theorem ofOption_eq_ok {o : Option α} {e : ε} {a : α} : Res.ofOption o e = .ok a ↔ o = some a := by
  cases o <;> simp
theorem unwrapOpt_eq_ok {o : Option α} {a : α} : (Res.unwrapOpt o : Res ε α) = .ok a ↔ o = some a := by
  cases o <;> simp

end Res

section Loops
variable {ε σ α β : Type}

theorem loop_nil (f : σ → α → Res ε σ) (s : σ) : loop f s [] = .ok s := rfl

theorem loop_cons (f : σ → α → Res ε σ) (s : σ) (x : α) (xs : List α) :
    loop f s (x :: xs) = (f s x >>= fun s' => loop f s' xs) := by
  simp only [loop]
  cases f s x <;> rfl

theorem loop_append (f : σ → α → Res ε σ) (s : σ) (xs ys : List α) :
    loop f s (xs ++ ys) = (loop f s xs >>= fun s' => loop f s' ys) := by
  induction xs generalizing s with
  | nil => rfl
  | cons x xs ih =>
    rw [List.cons_append, loop_cons, loop_cons]
    cases f s x <;> simp [ih]

/-- A loop whose body never fails is a fold. -/
theorem loop_eq_foldl {f : σ → α → Res ε σ} {g : σ → α → σ} {l : List α}
    (h : ∀ s, ∀ x ∈ l, f s x = .ok (g s x)) (s : σ) : loop f s l = .ok (l.foldl g s) := by
  induction l generalizing s with
  | nil => rfl
  | cons x xs ih =>
    rw [loop_cons, h s x (by simp)]
    simpa using ih (fun s y hy => h s y (by simp [hy])) (g s x)

/-- A loop whose body always fails the same way on some element not preceded by other failures. -/
theorem loop_panic_of_first {f : σ → α → Res ε σ} {x : α} {xs : List α} {s : σ} (h : f s x = .panic) :
    loop f s (x :: xs) = .panic := by
  simp [loop_cons, h]

/-- The outcome is a value or a panic. -/
def Res.Total (x : Res ε α) : Prop := x = .panic ∨ ∃ a, x = .ok a

theorem Res.Total.ok (a : α) : (Res.ok a : Res ε α).Total := Or.inr ⟨a, rfl⟩
theorem Res.Total.panic : (Res.panic : Res ε α).Total := Or.inl rfl

theorem Res.Total.bind {x : Res ε α} {f : α → Res ε β} (hx : x.Total) (hf : ∀ a, (f a).Total) : (x >>= f).Total := by
  rcases hx with rfl | ⟨a, rfl⟩
  · exact .panic
  · exact hf a

theorem idx_total (l : List α) (i : ℕ) : (idx l i : Res ε α).Total := by
  unfold idx
  cases l[i]? with
  | none => exact .panic
  | some a => exact .ok a

theorem loop_total {f : σ → α → Res ε σ} (h : ∀ s x, (f s x).Total) (s : σ) (l : List α) : (loop f s l).Total := by
  induction l generalizing s with
  | nil => exact .ok s
  | cons x xs ih =>
    rw [loop_cons]
    exact (h s x).bind fun s' => ih s'

/-- A terminated loop ran its body successfully on every element. -/
theorem loop_ok_forall {f : σ → α → Res ε σ} {s s' : σ} {l : List α} (h : loop f s l = .ok s') :
    ∀ x ∈ l, ∃ s1 s2, f s1 x = .ok s2 := by
  induction l generalizing s with
  | nil => simp
  | cons x xs ih =>
    rw [loop_cons, Res.bind_eq_ok] at h
    obtain ⟨s1, h1, h2⟩ := h
    intro y hy
    rcases List.mem_cons.1 hy with rfl | hy
    · exact ⟨_, _, h1⟩
    · exact ih h2 y hy

theorem collect_nil (f : α → Res ε β) : collect f [] = .ok [] := rfl

theorem collect_cons (f : α → Res ε β) (x : α) (xs : List α) :
    collect f (x :: xs) = (f x >>= fun y => collect f xs >>= fun ys => .ok (y :: ys)) := by
  simp only [collect]
  cases f x with
  | ok y => cases collect f xs <;> rfl
  | err e => rfl
  | panic => rfl
  | diverge => rfl

theorem collect_eq_map {f : α → Res ε β} {g : α → β} {l : List α} (h : ∀ x ∈ l, f x = .ok (g x)) :
    collect f l = .ok (l.map g) := by
  induction l with
  | nil => rfl
  | cons x xs ih =>
    rw [collect_cons, h x (by simp), Res.bind_ok', ih fun y hy => h y (by simp [hy])]
    rfl

theorem collect_eq_ok_iff {f : α → Res ε β} {l : List α} {ys : List β} :
    collect f l = .ok ys ↔ List.Forall₂ (fun x y => f x = .ok y) l ys := by
  induction l generalizing ys with
  | nil => simp [collect_nil, eq_comm]
  | cons x xs ih =>
    rw [collect_cons]
    simp only [Res.bind_eq_ok, ih, List.forall₂_cons_left_iff]
    constructor
    · rintro ⟨y, hy, ys', hys, h⟩
      cases h
      exact ⟨y, ys', hy, hys, rfl⟩
    · rintro ⟨y, ys', hy, hys, rfl⟩
      exact ⟨y, hy, ys', hys, rfl⟩

theorem collect_eq_ok_mem {f : α → Res ε β} {l : List α} {ys : List β} (h : collect f l = .ok ys) :
    ∀ x ∈ l, ∃ y, f x = .ok y := by
  rw [collect_eq_ok_iff] at h
  induction h with
  | nil => simp
  | cons hxy _ ih =>
    intro z hz
    rcases List.mem_cons.1 hz with rfl | hz
    · exact ⟨_, hxy⟩
    · exact ih z hz

/-- First failure of a `collect`. -/
theorem collect_append_err {f : α → Res ε β} {xs ys : List α} {x : α} {e : ε}
    (h : ∀ z ∈ xs, ∃ y, f z = .ok y) (hx : f x = .err e) : collect f (xs ++ x :: ys) = .err e := by
  induction xs with
  | nil => simp [collect_cons, hx]
  | cons z zs ih =>
    obtain ⟨y, hy⟩ := h z (by simp)
    rw [List.cons_append, collect_cons, hy, Res.bind_ok', ih fun w hw => h w (by simp [hw])]
    rfl

theorem idx_ok {l : List α} {i : ℕ} (h : i < l.length) : (idx l i : Res ε α) = .ok l[i] := by
  simp [idx, List.getElem?_eq_getElem h]

theorem idx_panic {l : List α} {i : ℕ} (h : l.length ≤ i) : (idx l i : Res ε α) = .panic := by
  simp [idx, List.getElem?_eq_none h]

theorem idx_eq_ok {l : List α} {i : ℕ} {a : α} : (idx l i : Res ε α) = .ok a ↔ l[i]? = some a := by
  unfold idx
  cases l[i]? <;> simp

theorem idx_ne_err {l : List α} {i : ℕ} {e : ε} : (idx l i : Res ε α) ≠ .err e := by
  unfold idx
  cases l[i]? <;> simp

theorem idx_ne_diverge {l : List α} {i : ℕ} : (idx l i : Res ε α) ≠ .diverge := by
  unfold idx
  cases l[i]? <;> simp

end Loops

section Scalars
variable {r : ℕ} [Fact r.Prime] {G : Type} [AddCommGroup G] [Module (ZMod r) G]

theorem mulRepr_eq_smul (P : G) (s : ZMod r) : mulRepr P s = s • P := by
  unfold mulRepr
  rw [← Nat.cast_smul_eq_nsmul (ZMod r), ZMod.natCast_zmod_val]

theorem natCast_ne_zero_of_lt {n : ℕ} (h0 : 0 < n) (h : n < r) : (n : ZMod r) ≠ 0 := by
  rw [Ne, ZMod.natCast_eq_zero_iff]
  exact Nat.not_dvd_of_pos_of_lt h0 h

theorem natCast_inj_of_lt {a b : ℕ} (ha : a < r) (hb : b < r) (h : (a : ZMod r) = (b : ZMod r)) : a = b := by
  rw [ZMod.natCast_eq_natCast_iff'] at h
  rwa [Nat.mod_eq_of_lt ha, Nat.mod_eq_of_lt hb] at h

theorem invUnwrap_ok {ε : Type} {x : ZMod r} (h : x ≠ 0) : (invUnwrap x : Res ε (ZMod r)) = .ok x⁻¹ := by
  simp [invUnwrap, h]

theorem invUnwrap_total {ε : Type} (x : ZMod r) : (invUnwrap x : Res ε (ZMod r)).Total := by
  unfold invUnwrap
  split
  · exact .panic
  · exact .ok _

theorem invUnwrap_eq_ok {ε : Type} {x y : ZMod r} : (invUnwrap x : Res ε (ZMod r)) = .ok y ↔ x ≠ 0 ∧ y = x⁻¹ := by
  unfold invUnwrap
  split <;> simp_all [eq_comm]

end Scalars

theorem mem_range1 {n i : ℕ} : i ∈ range1 n ↔ 1 ≤ i ∧ i ≤ n := by
  simp only [range1, List.mem_map, List.mem_range]
  constructor
  · rintro ⟨a, ha, rfl⟩; omega
  · rintro ⟨h1, h2⟩; exact ⟨i - 1, by omega, by omega⟩

theorem length_range1 (n : ℕ) : (range1 n).length = n := by simp [range1]

end Verif
