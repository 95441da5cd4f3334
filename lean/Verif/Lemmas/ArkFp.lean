import Verif.Model.ArkFp
import Verif.Lemmas.Bls
import Mathlib.Tactic.Ring
import Mathlib.Tactic.Linarith
import Mathlib.Tactic.LinearCombination
import Mathlib.Algebra.Field.ZMod

/-!
# Limb arithmetic: lemmas for C128
-/

namespace Verif.ArkFp

/-- The number with the given limbs, the least significant first. -/
def _root_.Verif.Spec.value : List ℕ → ℕ
  | [] => 0
  | a :: as => a + 2 ^ 64 * Spec.value as

/-- `n` limbs of 64 bits. -/
def _root_.Verif.Spec.Limbs (n : ℕ) (l : List ℕ) : Prop := l.length = n ∧ ∀ a ∈ l, a < 2 ^ 64

open Spec (value Limbs)

theorem value_append (l l' : List ℕ) : value (l ++ l') = value l + 2 ^ (64 * l.length) * value l' := by
  induction l with
  | nil => simp [value]
  | cons a l ih =>
    simp only [List.cons_append, value, ih, List.length_cons]
    rw [show 64 * (l.length + 1) = 64 + 64 * l.length by ring, pow_add]
    ring

theorem value_lt {n : ℕ} {l : List ℕ} (h : Limbs n l) : value l < 2 ^ (64 * n) := by
  obtain ⟨rfl, h⟩ := h
  induction l with
  | nil => simp [value]
  | cons a l ih =>
    have h1 := ih fun b hb => h b (List.mem_cons_of_mem _ hb)
    have h2 := h a (List.mem_cons_self ..)
    simp only [value, List.length_cons]
    rw [show 64 * (l.length + 1) = 64 + 64 * l.length by ring, pow_add]
    generalize 2 ^ (64 * l.length) = M at *
    omega

theorem _root_.Verif.Spec.Limbs.tail {n : ℕ} {a : ℕ} {l : List ℕ} (h : Limbs (n + 1) (a :: l)) : a < 2 ^ 64 ∧ Limbs n l :=
  ⟨h.2 a (List.mem_cons_self ..), Nat.succ.inj h.1, fun b hb => h.2 b (List.mem_cons_of_mem _ hb)⟩

theorem _root_.Verif.Spec.Limbs.cons {n : ℕ} {a : ℕ} {l : List ℕ} (ha : a < 2 ^ 64) (h : Limbs n l) : Limbs (n + 1) (a :: l) :=
  ⟨congrArg Nat.succ h.1, fun b hb => (List.mem_cons.1 hb).elim (fun e => e ▸ ha) (h.2 b)⟩

theorem _root_.Verif.Spec.Limbs.exists_cons {n : ℕ} {l : List ℕ} (h : Limbs (n + 1) l) : ∃ a l', l = a :: l' ∧ a < 2 ^ 64 ∧ Limbs n l' := by
  match l, h with
  | a :: l', h => exact ⟨a, l', rfl, h.tail⟩
  | [], h => cases h.1

theorem _root_.Verif.Spec.Limbs.eq_nil {l : List ℕ} (h : Limbs 0 l) : l = [] := List.length_eq_zero_iff.1 h.1

theorem value_inj {n : ℕ} {l l' : List ℕ} (h : Limbs n l) (h' : Limbs n l') (he : value l = value l') : l = l' := by
  induction n generalizing l l' with
  | zero => rw [h.eq_nil, h'.eq_nil]
  | succ n ih =>
    obtain ⟨a, l, rfl, ha, hl⟩ := h.exists_cons
    obtain ⟨b, l', rfl, hb, hl'⟩ := h'.exists_cons
    simp only [value] at he
    have h1 : a = b := by omega
    have h2 : value l = value l' := by omega
    rw [h1, ih hl hl' h2]

theorem limbs_replicate (n : ℕ) : Limbs n (List.replicate n 0) :=
  ⟨by simp, fun a h => by rw [(List.mem_replicate.1 h).2]; norm_num⟩

theorem value_replicate (n : ℕ) : value (List.replicate n 0) = 0 := by
  induction n with
  | zero => rfl
  | succ n ih => simp [List.replicate_succ, value, ih]

theorem isZero_iff {n : ℕ} {l : List ℕ} (h : Limbs n l) : isZero l = true ↔ value l = 0 := by
  induction n generalizing l with
  | zero => rw [h.eq_nil]; simp [isZero, value]
  | succ n ih =>
    obtain ⟨a, l, rfl, ha, hl⟩ := h.exists_cons
    have := ih hl
    simp only [isZero, List.all_cons, value, Bool.and_eq_true, decide_eq_true_eq] at this ⊢
    rw [this]
    omega

theorem one_limbs {n : ℕ} (hn : 0 < n) : Limbs n (one n) ∧ value (one n) = 1 := by
  obtain ⟨n, rfl⟩ := Nat.exists_eq_succ_of_ne_zero hn.ne'
  refine ⟨?_, ?_⟩
  · exact Spec.Limbs.cons (by norm_num) (limbs_replicate n)
  · simp only [one, value, Nat.succ_sub_one, value_replicate, mul_zero, add_zero]

/-! ### Addition and subtraction -/

theorem adcLoop_spec {n : ℕ} {a b : List ℕ} (ha : Limbs n a) (hb : Limbs n b) (c : ℕ) :
    Limbs n (adcLoop c a b) ∧ value (adcLoop c a b) = (value a + value b + c) % 2 ^ (64 * n) := by
  induction n generalizing a b c with
  | zero =>
    rw [ha.eq_nil, hb.eq_nil]
    refine ⟨⟨rfl, fun x hx => by cases hx⟩, ?_⟩
    simp [adcLoop, value, Nat.mod_one]
  | succ n ih =>
    obtain ⟨x, a, rfl, hx, ha⟩ := ha.exists_cons
    obtain ⟨y, b, rfl, hy, hb⟩ := hb.exists_cons
    obtain ⟨h1, h2⟩ := ih ha hb ((x + y + c) / 2 ^ 64)
    refine ⟨Spec.Limbs.cons (Nat.mod_lt _ (by norm_num)) h1, ?_⟩
    simp only [adcLoop, value, h2]
    rw [show 64 * (n + 1) = 64 + 64 * n by ring, pow_add, Nat.mod_mul]
    congr 1
    · omega
    · congr 2
      omega

theorem adcLoop_value {n : ℕ} {a b : List ℕ} (ha : Limbs n a) (hb : Limbs n b) (h : value a + value b < 2 ^ (64 * n)) :
    Limbs n (adcLoop 0 a b) ∧ value (adcLoop 0 a b) = value a + value b := by
  obtain ⟨h1, h2⟩ := adcLoop_spec ha hb 0
  exact ⟨h1, by rw [h2, add_zero, Nat.mod_eq_of_lt h]⟩

theorem sbbLoop_spec {n : ℕ} {a b : List ℕ} (ha : Limbs n a) (hb : Limbs n b) {w : ℕ} (hw : w ≤ 1) (h : value b + w ≤ value a) :
    Limbs n (sbbLoop w a b) ∧ value (sbbLoop w a b) = value a - value b - w := by
  induction n generalizing a b w with
  | zero =>
    rw [ha.eq_nil, hb.eq_nil]
    refine ⟨⟨rfl, fun x hx => by cases hx⟩, ?_⟩
    simp [sbbLoop, value]
  | succ n ih =>
    obtain ⟨x, a, rfl, hx, ha⟩ := ha.exists_cons
    obtain ⟨y, b, rfl, hy, hb⟩ := hb.exists_cons
    simp only [value] at h
    simp only [sbbLoop]
    by_cases hc : y + w ≤ x
    · rw [if_neg (by omega)]
      obtain ⟨h1, h2⟩ := ih ha hb (w := 0) (by omega) (by omega)
      refine ⟨Spec.Limbs.cons (Nat.mod_lt _ (by norm_num)) h1, ?_⟩
      simp only [value, h2]
      omega
    · rw [if_pos (by omega)]
      obtain ⟨h1, h2⟩ := ih ha hb (w := 1) (by omega) (by omega)
      refine ⟨Spec.Limbs.cons (Nat.mod_lt _ (by norm_num)) h1, ?_⟩
      simp only [value, h2]
      omega

theorem sbbLoop_value {n : ℕ} {a b : List ℕ} (ha : Limbs n a) (hb : Limbs n b) (h : value b ≤ value a) :
    Limbs n (sbbLoop 0 a b) ∧ value (sbbLoop 0 a b) = value a - value b := by
  obtain ⟨h1, h2⟩ := sbbLoop_spec ha hb (w := 0) (by omega) h
  exact ⟨h1, by rw [h2]; rfl⟩

/-! ### Comparison and halving -/

theorem limbs_concat {n : ℕ} {l : List ℕ} (h : Limbs (n + 1) l) : ∃ l' a, l = l' ++ [a] ∧ a < 2 ^ 64 ∧ Limbs n l' := by
  have hne : l ≠ [] := fun e => by rw [e] at h; cases h.1
  refine ⟨l.dropLast, l.getLast hne, (List.dropLast_append_getLast hne).symm, h.2 _ (List.getLast_mem hne), ?_, fun a ha =>
    h.2 a (List.mem_of_mem_dropLast ha)⟩
  rw [List.length_dropLast, h.1]
  rfl

theorem cmp_spec {n : ℕ} {a b : List ℕ} (ha : Limbs n a) (hb : Limbs n b) : cmp a b = compare (value a) (value b) := by
  induction n generalizing a b with
  | zero => rw [ha.eq_nil, hb.eq_nil]; rfl
  | succ n ih =>
    obtain ⟨a, x, rfl, hx, ha⟩ := limbs_concat ha
    obtain ⟨b, y, rfl, hy, hb⟩ := limbs_concat hb
    have h1 := value_lt ha
    have h2 := value_lt hb
    have e : cmp (a ++ [x]) (b ++ [y]) = if x < y then .lt else if y < x then .gt else cmp a b := by
      simp [cmp, cmpLoop]
    rw [e, value_append, value_append, ha.1, hb.1]
    simp only [value, mul_zero, add_zero]
    generalize 2 ^ (64 * n) = M at *
    by_cases hxy : x < y
    · rw [if_pos hxy, eq_comm, compare_lt_iff_lt]
      nlinarith
    · rw [if_neg hxy]
      by_cases hyx : y < x
      · rw [if_pos hyx, eq_comm, compare_gt_iff_gt]
        show value b + M * y < value a + M * x
        nlinarith
      · rw [if_neg hyx, ih ha hb, show x = y by omega]
        rcases lt_trichotomy (value a) (value b) with h | h | h
        · rw [compare_lt_iff_lt.2 h, compare_lt_iff_lt.2 (by omega)]
        · rw [h, compare_eq_iff_eq.2 rfl, compare_eq_iff_eq.2 rfl]
        · rw [compare_gt_iff_gt.2 h, compare_gt_iff_gt.2 (by omega)]

theorem cmp_lt_iff {n : ℕ} {a b : List ℕ} (ha : Limbs n a) (hb : Limbs n b) : cmp a b = .lt ↔ value a < value b := by
  rw [cmp_spec ha hb, compare_lt_iff_lt]

theorem cmp_gt_iff {n : ℕ} {a b : List ℕ} (ha : Limbs n a) (hb : Limbs n b) : cmp a b = .gt ↔ value b < value a := by
  rw [cmp_spec ha hb, compare_gt_iff_gt]

theorem isEven_iff (l : List ℕ) : isEven l = true ↔ value l % 2 = 0 := by
  cases l with
  | nil => simp [isEven, value]
  | cons a l =>
    rw [isEven, List.headD_cons, decide_eq_true_iff, value]
    omega

theorem div2_spec {n : ℕ} {l : List ℕ} (h : Limbs n l) : Limbs n (div2 l) ∧ value (div2 l) = value l / 2 := by
  induction n generalizing l with
  | zero =>
    rw [h.eq_nil]
    exact ⟨⟨rfl, fun x hx => by cases hx⟩, rfl⟩
  | succ n ih =>
    obtain ⟨a, l, rfl, ha, hl⟩ := h.exists_cons
    obtain ⟨h1, h2⟩ := ih hl
    have he : l.headD 0 % 2 = value l % 2 := by
      cases l with
      | nil => rfl
      | cons x l => simp only [List.headD_cons, value]; omega
    refine ⟨Spec.Limbs.cons (by omega) h1, ?_⟩
    simp only [div2, value, h2, he]
    omega

/-! ### The product -/

theorem mulLoop_value (b k : ℕ) {n : ℕ} {r a m : List ℕ} (hr : r.length = n) (ha : a.length = n) (hm : m.length = n) (c1 c2 : ℕ) :
    value (mulLoop b k c1 c2 r a m) = value r + b * value a + k * value m + c1 + c2 := by
  induction n generalizing r a m c1 c2 with
  | zero =>
    rw [List.length_eq_zero_iff.1 hr, List.length_eq_zero_iff.1 ha, List.length_eq_zero_iff.1 hm]
    simp [mulLoop, value]
  | succ n ih =>
    match r, a, m, hr, ha, hm with
    | r0 :: r, a0 :: a, m0 :: m, hr, ha, hm =>
      simp only [mulLoop, value]
      rw [ih (Nat.succ.inj hr) (Nat.succ.inj ha) (Nat.succ.inj hm)]
      have h1 := Nat.mod_add_div (r0 + a0 * b + c1) (2 ^ 64)
      have h2 := Nat.mod_add_div ((r0 + a0 * b + c1) % 2 ^ 64 + k * m0 + c2) (2 ^ 64)
      generalize (r0 + a0 * b + c1) % 2 ^ 64 = t at *
      generalize (r0 + a0 * b + c1) / 2 ^ 64 = t' at *
      generalize (t + k * m0 + c2) % 2 ^ 64 = s at *
      generalize (t + k * m0 + c2) / 2 ^ 64 = s' at *
      linarith

theorem mulLoop_shape (b k : ℕ) {n : ℕ} {r a m : List ℕ} (hr : r.length = n) (ha : a.length = n) (hm : m.length = n) (c1 c2 : ℕ) :
    ∃ l x, mulLoop b k c1 c2 r a m = l ++ [x] ∧ Limbs n l := by
  induction n generalizing r a m c1 c2 with
  | zero =>
    rw [List.length_eq_zero_iff.1 hr, List.length_eq_zero_iff.1 ha, List.length_eq_zero_iff.1 hm]
    exact ⟨[], c1 + c2, rfl, rfl, fun x hx => by cases hx⟩
  | succ n ih =>
    match r, a, m, hr, ha, hm with
    | r0 :: r, a0 :: a, m0 :: m, hr, ha, hm =>
      obtain ⟨l, x, e, h⟩ := ih (Nat.succ.inj hr) (Nat.succ.inj ha) (Nat.succ.inj hm) ((r0 + a0 * b + c1) / 2 ^ 64)
        (((r0 + a0 * b + c1) % 2 ^ 64 + k * m0 + c2) / 2 ^ 64)
      refine ⟨((r0 + a0 * b + c1) % 2 ^ 64 + k * m0 + c2) % 2 ^ 64 :: l, x, ?_, Spec.Limbs.cons (Nat.mod_lt _ (by norm_num)) h⟩
      simp only [mulLoop, e, List.cons_append]

theorem redcLoop_value (k : ℕ) {n : ℕ} {r m : List ℕ} (hr : r.length = n) (hm : m.length = n) (c : ℕ) :
    value (redcLoop k c r m) = value r + k * value m + c := by
  induction n generalizing r m c with
  | zero =>
    rw [List.length_eq_zero_iff.1 hr, List.length_eq_zero_iff.1 hm]
    simp [redcLoop, value]
  | succ n ih =>
    match r, m, hr, hm with
    | r0 :: r, m0 :: m, hr, hm =>
      simp only [redcLoop, value]
      rw [ih (Nat.succ.inj hr) (Nat.succ.inj hm)]
      have h1 := Nat.mod_add_div (r0 + k * m0 + c) (2 ^ 64)
      generalize (r0 + k * m0 + c) % 2 ^ 64 = t at *
      generalize (r0 + k * m0 + c) / 2 ^ 64 = t' at *
      linarith

theorem redcLoop_shape (k : ℕ) {n : ℕ} {r m : List ℕ} (hr : r.length = n) (hm : m.length = n) (c : ℕ) :
    ∃ l x, redcLoop k c r m = l ++ [x] ∧ Limbs n l := by
  induction n generalizing r m c with
  | zero =>
    rw [List.length_eq_zero_iff.1 hr, List.length_eq_zero_iff.1 hm]
    exact ⟨[], c, rfl, rfl, fun x hx => by cases hx⟩
  | succ n ih =>
    match r, m, hr, hm with
    | r0 :: r, m0 :: m, hr, hm =>
      obtain ⟨l, x, e, h⟩ := ih (Nat.succ.inj hr) (Nat.succ.inj hm) ((r0 + k * m0 + c) / 2 ^ 64)
      refine ⟨(r0 + k * m0 + c) % 2 ^ 64 :: l, x, ?_, Spec.Limbs.cons (Nat.mod_lt _ (by norm_num)) h⟩
      simp only [redcLoop, e, List.cons_append]

theorem limbs_of_shape {n : ℕ} {l : List ℕ} {x : ℕ} (h : Limbs n l) (hv : value (l ++ [x]) < 2 ^ (64 * (n + 1))) :
    Limbs (n + 1) (l ++ [x]) := by
  refine ⟨by simp [h.1], fun a ha => ?_⟩
  rcases List.mem_append.1 ha with ha | ha
  · exact h.2 a ha
  · rw [List.mem_singleton.1 ha]
    rw [value_append, h.1] at hv
    simp only [value, mul_zero, add_zero] at hv
    rw [show 64 * (n + 1) = 64 * n + 64 by ring, pow_add] at hv
    have hp : 0 < 2 ^ (64 * n) := by positivity
    exact Nat.lt_of_mul_lt_mul_left (lt_of_le_of_lt (Nat.le_add_left _ _) hv)

/-! ### The square -/

theorem mul2Loop_spec {n : ℕ} {a : List ℕ} (ha : Limbs n a) {c : ℕ} (hc : c ≤ 1) :
    Limbs n (mul2Loop c a) ∧ value (mul2Loop c a) = (2 * value a + c) % 2 ^ (64 * n) := by
  induction n generalizing a c with
  | zero =>
    rw [ha.eq_nil]
    refine ⟨⟨rfl, fun x hx => by cases hx⟩, ?_⟩
    simp [mul2Loop, value, Nat.mod_one]
  | succ n ih =>
    obtain ⟨x, a, rfl, hx, ha⟩ := ha.exists_cons
    obtain ⟨h1, h2⟩ := ih ha (c := x / 2 ^ 63) (by omega)
    refine ⟨Spec.Limbs.cons (by omega) h1, ?_⟩
    simp only [mul2Loop, value, h2]
    rw [show 64 * (n + 1) = 64 + 64 * n by ring, pow_add, Nat.mod_mul]
    congr 1
    · omega
    · congr 2
      omega

theorem mul2Loop_value {n : ℕ} {a : List ℕ} (ha : Limbs n a) (h : 2 * value a < 2 ^ (64 * n)) :
    Limbs n (mul2Loop 0 a) ∧ value (mul2Loop 0 a) = 2 * value a := by
  obtain ⟨h1, h2⟩ := mul2Loop_spec ha (c := 0) (by omega)
  exact ⟨h1, by rw [h2, add_zero, Nat.mod_eq_of_lt h]⟩

theorem sqRow_spec {a : ℕ} (ha : a < 2 ^ 64) {n : ℕ} {r b : List ℕ} (hr : Limbs n r) (hb : Limbs n b) {c : ℕ} (hc : c < 2 ^ 64) :
    Limbs (n + 1) (sqRow a c r b) ∧ value (sqRow a c r b) = value r + a * value b + c := by
  induction n generalizing r b c with
  | zero =>
    rw [hr.eq_nil, hb.eq_nil]
    refine ⟨Spec.Limbs.cons hc ⟨rfl, fun x hx => by cases hx⟩, ?_⟩
    simp [sqRow, value]
  | succ n ih =>
    obtain ⟨r0, r, rfl, hr0, hr⟩ := hr.exists_cons
    obtain ⟨b0, b, rfl, hb0, hb⟩ := hb.exists_cons
    have hlt : r0 + a * b0 + c < 2 ^ 64 * 2 ^ 64 := by
      have : a * b0 ≤ (2 ^ 64 - 1) * (2 ^ 64 - 1) := Nat.mul_le_mul (by omega) (by omega)
      omega
    obtain ⟨h1, h2⟩ := ih hr hb (c := (r0 + a * b0 + c) / 2 ^ 64) (Nat.div_lt_of_lt_mul hlt)
    refine ⟨Spec.Limbs.cons (Nat.mod_lt _ (by norm_num)) h1, ?_⟩
    simp only [sqRow, value, h2]
    have h3 := Nat.mod_add_div (r0 + a * b0 + c) (2 ^ 64)
    generalize (r0 + a * b0 + c) % 2 ^ 64 = t at *
    generalize (r0 + a * b0 + c) / 2 ^ 64 = t' at *
    linarith

/-- The sum of the products of different limbs, one limb down. -/
def offDiag : List ℕ → ℕ
  | [] => 0
  | a :: as => a * value as + 2 ^ 128 * offDiag as

/-- The sum of the squares of the limbs. -/
def onDiag : List ℕ → ℕ
  | [] => 0
  | a :: as => a * a + 2 ^ 128 * onDiag as

theorem value_sq (a : List ℕ) : value a * value a = 2 * (2 ^ 64 * offDiag a) + onDiag a := by
  induction a with
  | nil => rfl
  | cons a l ih =>
    simp only [value, offDiag, onDiag]
    linear_combination 2 ^ 128 * ih

theorem sqRows_spec {n : ℕ} {r a : List ℕ} (hr : Limbs n r) (ha : Limbs (n + 1) a) :
    Limbs (2 * n) (sqRows r a) ∧ value (sqRows r a) = value r + offDiag a := by
  induction n generalizing r a with
  | zero =>
    obtain ⟨a0, a, rfl, ha0, ha⟩ := ha.exists_cons
    rw [hr.eq_nil, ha.eq_nil]
    exact ⟨⟨rfl, fun x hx => by cases hx⟩, by simp [sqRows, value, offDiag]⟩
  | succ n ih =>
    obtain ⟨a0, a, rfl, ha0, ha⟩ := ha.exists_cons
    obtain ⟨h1, h2⟩ := sqRow_spec ha0 hr ha (c := 0) (by norm_num)
    obtain ⟨b, bs, rfl, hb, hbs⟩ := ha.exists_cons
    simp only [sqRows]
    generalize sqRow a0 0 r (b :: bs) = row at *
    obtain ⟨x, row, rfl, hx, h1⟩ := h1.exists_cons
    obtain ⟨y, row, rfl, hy, h1⟩ := h1.exists_cons
    obtain ⟨h3, h4⟩ := ih h1 ha
    refine ⟨Spec.Limbs.cons hx (Spec.Limbs.cons hy h3), ?_⟩
    simp only [value, h4] at h2 ⊢
    rw [show offDiag (a0 :: b :: bs) = a0 * (b + 2 ^ 64 * value bs) + 2 ^ 128 * offDiag (b :: bs) from rfl]
    linarith

theorem sqDiag_spec {n : ℕ} {r a : List ℕ} (hr : Limbs (2 * n) r) (ha : Limbs n a) (c : ℕ) :
    Limbs (2 * n) (sqDiag c r a) ∧ value (sqDiag c r a) = (value r + onDiag a + c) % 2 ^ (64 * (2 * n)) := by
  induction n generalizing r a c with
  | zero =>
    rw [hr.eq_nil, ha.eq_nil]
    exact ⟨⟨rfl, fun x hx => by cases hx⟩, by simp [sqDiag, value, Nat.mod_one]⟩
  | succ n ih =>
    rw [show 2 * (n + 1) = 2 * n + 1 + 1 by ring] at hr ⊢
    obtain ⟨x, r, rfl, hx, hr⟩ := hr.exists_cons
    obtain ⟨y, r, rfl, hy, hr⟩ := hr.exists_cons
    obtain ⟨a0, a, rfl, ha0, ha⟩ := ha.exists_cons
    obtain ⟨h1, h2⟩ := ih hr ha ((y + (x + a0 * a0 + c) / 2 ^ 64) / 2 ^ 64)
    refine ⟨Spec.Limbs.cons (Nat.mod_lt _ (by norm_num)) (Spec.Limbs.cons (Nat.mod_lt _ (by norm_num)) h1), ?_⟩
    simp only [sqDiag, value, h2, onDiag]
    rw [show 64 * (2 * n + 1 + 1) = 64 + (64 + 64 * (2 * n)) by ring, pow_add, Nat.mod_mul, pow_add, Nat.mod_mul]
    generalize a0 * a0 = q at *
    have e1 : (x + 2 ^ 64 * (y + 2 ^ 64 * value r) + (q + 2 ^ 128 * onDiag a) + c) / 2 ^ 64 =
        y + (x + q + c) / 2 ^ 64 + 2 ^ 64 * (value r + onDiag a) := by omega
    rw [e1]
    congr 1
    · omega
    · congr 2
      · omega
      · congr 2
        omega

theorem sqRedcLoop_spec (k c2 : ℕ) {n j : ℕ} {r m : List ℕ} (hr : Limbs (n + 1 + j) r) (hm : Limbs n m) (c : ℕ) :
    Limbs (n + 1 + j) (sqRedcLoop k c2 c r m).1 ∧
      value (sqRedcLoop k c2 c r m).1 + 2 ^ (64 * (n + 1)) * (sqRedcLoop k c2 c r m).2 =
        value r + k * value m + c + 2 ^ (64 * n) * c2 := by
  induction n generalizing r m c with
  | zero =>
    rw [hm.eq_nil]
    rw [show 0 + 1 + j = j + 1 by ring] at hr ⊢
    obtain ⟨x, r, rfl, hx, hr⟩ := hr.exists_cons
    simp only [sqRedcLoop]
    refine ⟨Spec.Limbs.cons (Nat.mod_lt _ (by norm_num)) hr, ?_⟩
    simp only [value]
    have := Nat.mod_add_div (x + c2 + c) (2 ^ 64)
    simp only [zero_add, mul_one, mul_zero, pow_zero, one_mul, add_zero]
    omega
  | succ n ih =>
    rw [show n + 1 + 1 + j = n + 1 + j + 1 by ring] at hr ⊢
    obtain ⟨x, r, rfl, hx, hr⟩ := hr.exists_cons
    obtain ⟨m0, m, rfl, hm0, hm⟩ := hm.exists_cons
    obtain ⟨h1, h2⟩ := ih hr hm ((x + k * m0 + c) / 2 ^ 64)
    simp only [sqRedcLoop]
    refine ⟨Spec.Limbs.cons (Nat.mod_lt _ (by norm_num)) h1, ?_⟩
    simp only [value]
    have h3 := Nat.mod_add_div (x + k * m0 + c) (2 ^ 64)
    rw [show 64 * (n + 1 + 1) = 64 + 64 * (n + 1) by ring, pow_add]
    rw [show 2 ^ (64 * (n + 1)) * c2 = 2 ^ 64 * (2 ^ (64 * n) * c2) by
      rw [show 64 * (n + 1) = 64 + 64 * n by ring, pow_add]; ring]
    generalize 2 ^ (64 * n) * c2 = w at *
    generalize (x + k * m0 + c) % 2 ^ 64 = t at *
    generalize (x + k * m0 + c) / 2 ^ 64 = t' at *
    generalize sqRedcLoop k c2 t' r m = o at *
    linear_combination 2 ^ 64 * h2 + h3

/-- The parameters belong to the modulus `p` of `n` limbs with a free bit at the top. -/
structure _root_.Verif.Spec.FpFor (P : Params) (p n : ℕ) : Prop where
  limbs : Limbs n P.modulus
  modulus : value P.modulus = p
  inv : (P.modulus.headD 0 * P.inv + 1) % 2 ^ 64 = 0
  r2_limbs : Limbs n P.r2
  r2 : value P.r2 = 2 ^ (128 * n) % p
  free : 2 * p < 2 ^ (64 * n)

theorem mont_digit {P : Params} {t m0 : ℕ} (h : (m0 * P.inv + 1) % 2 ^ 64 = 0) :
    (t % 2 ^ 64 + t % 2 ^ 64 * P.inv % 2 ^ 64 * m0) % 2 ^ 64 = 0 := by
  generalize t % 2 ^ 64 = u
  have h1 : (u + u * P.inv % 2 ^ 64 * m0) % 2 ^ 64 = (u * (m0 * P.inv + 1)) % 2 ^ 64 := by
    rw [Nat.add_mod, Nat.mul_mod, Nat.mod_mod, ← Nat.mul_mod, ← Nat.add_mod]
    congr 1
    ring
  rw [h1, Nat.mul_mod, h, mul_zero, Nat.zero_mod]

section
variable {P : Params} {p n : ℕ} (hP : Spec.FpFor P p n)
include hP

/-- One round of `mul_assign`. -/
theorem mulRound_spec {a r : List ℕ} (ha : Limbs n a) (hr : Limbs n r) {b : ℕ} (hb : b < 2 ^ 64) (hr' : value r < value a + p)
    (ha' : value a < p) :
    Limbs n (mulRound P a r b) ∧ value (mulRound P a r b) < value a + p ∧
      ∃ k, 2 ^ 64 * value (mulRound P a r b) = value r + b * value a + k * p := by
  obtain ⟨hm, hp, hinv, -, -, hfree⟩ := hP
  cases n with
  | zero =>
    simp at hfree
    omega
  | succ n =>
    obtain ⟨a0, as, rfl, ha0, has⟩ := ha.exists_cons
    obtain ⟨r0, rs, rfl, hr0, hrs⟩ := hr.exists_cons
    obtain ⟨m0, ms, hmm, hm0, hms⟩ := hm.exists_cons
    rw [hmm] at hinv hp
    simp only [List.headD_cons] at hinv
    have hd := mont_digit (t := r0 + a0 * b) hinv
    simp only [mulRound, hmm]
    set k := (r0 + a0 * b) % 2 ^ 64 * P.inv % 2 ^ 64 with hk
    have hk64 : k < 2 ^ 64 := Nat.mod_lt _ (by norm_num)
    have hv := mulLoop_value b k hrs.1 has.1 hms.1 ((r0 + a0 * b) / 2 ^ 64) (((r0 + a0 * b) % 2 ^ 64 + k * m0) / 2 ^ 64)
    obtain ⟨l, x, e, hl⟩ := mulLoop_shape b k hrs.1 has.1 hms.1 ((r0 + a0 * b) / 2 ^ 64) (((r0 + a0 * b) % 2 ^ 64 + k * m0) / 2 ^ 64)
    have h1 := Nat.mod_add_div (r0 + a0 * b) (2 ^ 64)
    have h2 := Nat.mod_add_div ((r0 + a0 * b) % 2 ^ 64 + k * m0) (2 ^ 64)
    rw [hd, zero_add] at h2
    have hval : 2 ^ 64 * value (mulLoop b k ((r0 + a0 * b) / 2 ^ 64) (((r0 + a0 * b) % 2 ^ 64 + k * m0) / 2 ^ 64) rs as ms) =
        value (r0 :: rs) + b * value (a0 :: as) + k * p := by
      rw [hv, ← hp]
      simp only [value]
      generalize (r0 + a0 * b) % 2 ^ 64 = t at *
      generalize (r0 + a0 * b) / 2 ^ 64 = t' at *
      generalize (t + k * m0) / 2 ^ 64 = s' at *
      linarith
    have hlt : value (mulLoop b k ((r0 + a0 * b) / 2 ^ 64) (((r0 + a0 * b) % 2 ^ 64 + k * m0) / 2 ^ 64) rs as ms) <
        value (a0 :: as) + p := by
      have e1 : b * value (a0 :: as) ≤ (2 ^ 64 - 1) * value (a0 :: as) := Nat.mul_le_mul_right _ (by omega)
      have e2 : k * p ≤ (2 ^ 64 - 1) * p := Nat.mul_le_mul_right _ (by omega)
      omega
    refine ⟨?_, hlt, k, hval⟩
    rw [e] at hlt ⊢
    exact limbs_of_shape hl (lt_of_lt_of_le hlt (by omega))

theorem reduce_spec {a : List ℕ} (ha : Limbs n a) (h : value a < 2 * p) :
    Limbs n (reduce P a) ∧ value (reduce P a) = value a % p := by
  obtain ⟨hm, hp, -, -, -, -⟩ := hP
  unfold reduce
  by_cases hc : value a < p
  · rw [if_pos ((cmp_lt_iff ha hm).2 (by rw [hp]; exact hc)), Nat.mod_eq_of_lt hc]
    exact ⟨ha, rfl⟩
  · rw [if_neg fun h => hc (by rw [cmp_lt_iff ha hm, hp] at h; exact h)]
    obtain ⟨h1, h2⟩ := sbbLoop_value ha hm (by omega)
    refine ⟨h1, ?_⟩
    rw [h2, hp, Nat.mod_eq_sub_mod (by omega), Nat.mod_eq_of_lt (by omega)]

/-- One round of `into_repr`. -/
theorem redcRound_spec {r : List ℕ} (hr : Limbs n r) (hr' : value r < p) :
    Limbs n (redcRound P r) ∧ value (redcRound P r) < p ∧ ∃ k, 2 ^ 64 * value (redcRound P r) = value r + k * p := by
  obtain ⟨hm, hp, hinv, -, -, hfree⟩ := hP
  cases n with
  | zero =>
    simp at hfree
    omega
  | succ n =>
    obtain ⟨r0, rs, rfl, hr0, hrs⟩ := hr.exists_cons
    obtain ⟨m0, ms, hmm, hm0, hms⟩ := hm.exists_cons
    rw [hmm] at hinv hp
    simp only [List.headD_cons] at hinv
    have hd := mont_digit (t := r0) hinv
    rw [Nat.mod_eq_of_lt hr0] at hd
    simp only [redcRound, hmm]
    set k := r0 * P.inv % 2 ^ 64 with hk
    have hk64 : k < 2 ^ 64 := Nat.mod_lt _ (by norm_num)
    have hv := redcLoop_value k hrs.1 hms.1 ((r0 + k * m0) / 2 ^ 64)
    obtain ⟨l, x, e, hl⟩ := redcLoop_shape k hrs.1 hms.1 ((r0 + k * m0) / 2 ^ 64)
    have h2 := Nat.mod_add_div (r0 + k * m0) (2 ^ 64)
    rw [hd, zero_add] at h2
    have hval : 2 ^ 64 * value (redcLoop k ((r0 + k * m0) / 2 ^ 64) rs ms) = value (r0 :: rs) + k * p := by
      rw [hv, ← hp]
      simp only [value]
      generalize (r0 + k * m0) / 2 ^ 64 = s' at *
      linarith
    have hlt : value (redcLoop k ((r0 + k * m0) / 2 ^ 64) rs ms) < p := by
      have e2 : k * p ≤ (2 ^ 64 - 1) * p := Nat.mul_le_mul_right _ (by omega)
      omega
    refine ⟨?_, hlt, k, hval⟩
    rw [e] at hlt ⊢
    exact limbs_of_shape hl (lt_of_lt_of_le hlt (by omega))

/-! ### The residue of the number -/

theorem mulRound_fold {a : List ℕ} (ha : Limbs n a) (ha' : value a < p) {bs : List ℕ} (hb : ∀ b ∈ bs, b < 2 ^ 64) {r : List ℕ}
    (hr : Limbs n r) (hr' : value r < value a + p) :
    Limbs n (bs.foldl (mulRound P a) r) ∧ value (bs.foldl (mulRound P a) r) < value a + p ∧
      (value (bs.foldl (mulRound P a) r) : ZMod p) * (2 ^ (64 * bs.length) : ℕ) = value r + value a * value bs := by
  induction bs generalizing r with
  | nil => exact ⟨hr, hr', by simp [value]⟩
  | cons b bs ih =>
    obtain ⟨h1, h2, k, h3⟩ := mulRound_spec hP ha hr (hb b (List.mem_cons_self ..)) hr' ha'
    obtain ⟨h4, h5, h6⟩ := ih (fun c hc => hb c (List.mem_cons_of_mem _ hc)) h1 h2
    refine ⟨h4, h5, ?_⟩
    simp only [List.foldl_cons, List.length_cons, value]
    have h7 := congrArg (Nat.cast : ℕ → ZMod p) h3
    push_cast [ZMod.natCast_self] at h6 h7 ⊢
    rw [show 64 * (bs.length + 1) = 64 * bs.length + 64 by ring, pow_add]
    linear_combination 2 ^ 64 * h6 + h7

theorem redcRound_iterate (k : ℕ) {r : List ℕ} (hr : Limbs n r) (hr' : value r < p) :
    Limbs n ((redcRound P)^[k] r) ∧ value ((redcRound P)^[k] r) < p ∧
      (value ((redcRound P)^[k] r) : ZMod p) * (2 ^ (64 * k) : ℕ) = value r := by
  induction k generalizing r with
  | zero => exact ⟨hr, hr', by simp⟩
  | succ k ih =>
    obtain ⟨h1, h2, j, h3⟩ := redcRound_spec hP hr hr'
    obtain ⟨h4, h5, h6⟩ := ih h1 h2
    refine ⟨h4, h5, ?_⟩
    simp only [Function.iterate_succ, Function.comp]
    have h7 := congrArg (Nat.cast : ℕ → ZMod p) h3
    push_cast [ZMod.natCast_self] at h6 h7 ⊢
    rw [show 64 * (k + 1) = 64 * k + 64 by ring, pow_add]
    linear_combination 2 ^ 64 * h6 + h7

/-- The reduction of `square_in_place`. -/
theorem sqRedc_spec (i j : ℕ) (hij : i + j = n) {r : List ℕ} {c2 : ℕ} (hr : Limbs (n + i) r) :
    Limbs n (sqRedc P i (r, c2)).1 ∧
      ∃ k, k < 2 ^ (64 * i) ∧ 2 ^ (64 * i) * (value (sqRedc P i (r, c2)).1 + 2 ^ (64 * n) * (sqRedc P i (r, c2)).2) =
        value r + 2 ^ (64 * n) * c2 + k * p := by
  induction i generalizing r c2 j with
  | zero => exact ⟨hr, 0, by norm_num, by simp [sqRedc]⟩
  | succ i ih =>
    obtain ⟨r0, rs, rfl, hr0, hrs⟩ := Spec.Limbs.exists_cons (n := n + i) hr
    obtain ⟨n', rfl⟩ : ∃ n', n = n' + 1 := ⟨i + j, by omega⟩
    obtain ⟨m0, ms, hmm, hm0, hms⟩ := hP.limbs.exists_cons
    have hinv := hP.inv
    have hp := hP.modulus
    rw [hmm] at hinv hp
    simp only [List.headD_cons] at hinv
    have hd := mont_digit (t := r0) hinv
    rw [Nat.mod_eq_of_lt hr0] at hd
    simp only [sqRedc, hmm]
    set k := r0 * P.inv % 2 ^ 64 with hk
    have hk64 : k < 2 ^ 64 := Nat.mod_lt _ (by norm_num)
    obtain ⟨h1, h2⟩ := sqRedcLoop_spec k c2 hrs hms ((r0 + k * m0) / 2 ^ 64)
    obtain ⟨h3, k', hk', h4⟩ := ih (j + 1) (by omega) (c2 := (sqRedcLoop k c2 ((r0 + k * m0) / 2 ^ 64) rs ms).2) h1
    refine ⟨h3, k + 2 ^ 64 * k', ?_, ?_⟩
    · rw [show 64 * (i + 1) = 64 + 64 * i by ring, pow_add]
      generalize 2 ^ (64 * i) = M at *
      omega
    · have h5 := Nat.mod_add_div (r0 + k * m0) (2 ^ 64)
      rw [hd, zero_add] at h5
      rw [show 64 * (i + 1) = 64 + 64 * i by ring, pow_add]
      rw [show 2 ^ (64 * (n' + 1)) * c2 = 2 ^ 64 * (2 ^ (64 * n') * c2) by
        rw [show 64 * (n' + 1) = 64 + 64 * n' by ring, pow_add]; ring]
      simp only [value] at hp ⊢
      generalize sqRedcLoop k c2 ((r0 + k * m0) / 2 ^ 64) rs ms = o at *
      generalize 2 ^ (64 * n') * c2 = w at *
      generalize (r0 + k * m0) / 2 ^ 64 = t' at *
      linear_combination 2 ^ 64 * h4 + 2 ^ 64 * h2 + h5 + k * hp

theorem pos : 0 < n := by
  rcases Nat.eq_zero_or_pos n with rfl | h
  · have h1 := hP.free
    have h2 := hP.inv
    rw [hP.limbs.eq_nil] at h2
    simp at h2
  · exact h

theorem odd_modulus : p % 2 = 1 := by
  obtain ⟨hm, hp, hinv, -, -, hfree⟩ := hP
  cases hmm : P.modulus with
  | nil =>
    rw [hmm] at hinv
    simp at hinv
  | cons m0 ms =>
    rw [hmm] at hinv hp
    simp only [List.headD_cons] at hinv
    simp only [value] at hp
    rcases Nat.even_or_odd m0 with ⟨c, hc⟩ | ⟨c, hc⟩
    · exfalso
      rw [show m0 * P.inv = 2 * (c * P.inv) by rw [hc]; ring] at hinv
      omega
    · omega

end

/-- Canonical representatives: `N` limbs below the modulus. -/
def _root_.Verif.Spec.Canon (p n : ℕ) (l : List ℕ) : Prop := Limbs n l ∧ value l < p

open Spec (Canon)

section
variable {P : Params} {p n : ℕ} [hpr : Fact p.Prime] (hP : Spec.FpFor P p n)
include hP

theorem two_ne_zero' : (2 : ZMod p) ≠ 0 := by
  intro h
  have h1 : ((2 : ℕ) : ZMod p) = 0 := by exact_mod_cast h
  rw [ZMod.natCast_eq_zero_iff] at h1
  have h2 := Nat.le_of_dvd (by norm_num) h1
  have h3 := hpr.out.two_le
  have := odd_modulus hP
  omega

theorem rr_ne_zero (k : ℕ) : ((2 ^ k : ℕ) : ZMod p) ≠ 0 := by
  push_cast
  exact pow_ne_zero _ (two_ne_zero' hP)

theorem add_canon {a b : List ℕ} (ha : Canon p n a) (hb : Canon p n b) :
    Canon p n (add P a b) ∧ (value (add P a b) : ZMod p) = value a + value b := by
  have hf := hP.free
  obtain ⟨h1, h2⟩ := adcLoop_value ha.1 hb.1 (by have := ha.2; have := hb.2; omega)
  obtain ⟨h3, h4⟩ := reduce_spec hP h1 (by rw [h2]; have := ha.2; have := hb.2; omega)
  refine ⟨⟨h3, ?_⟩, ?_⟩
  · rw [add, h4]
    exact Nat.mod_lt _ hpr.out.pos
  · rw [add, h4, h2, ZMod.natCast_mod, Nat.cast_add]

theorem sub_canon {a b : List ℕ} (ha : Canon p n a) (hb : Canon p n b) :
    Canon p n (sub P a b) ∧ (value (sub P a b) : ZMod p) = value a - value b := by
  have hf := hP.free
  have ha' := ha.2
  have hb' := hb.2
  unfold sub
  by_cases hc : value a < value b
  · rw [if_pos ((cmp_gt_iff hb.1 ha.1).2 hc)]
    obtain ⟨h1, h2⟩ := adcLoop_value ha.1 hP.limbs (by rw [hP.modulus]; omega)
    rw [hP.modulus] at h2
    obtain ⟨h3, h4⟩ := sbbLoop_value h1 hb.1 (by omega)
    refine ⟨⟨h3, by omega⟩, ?_⟩
    rw [h4, h2, Nat.cast_sub (by omega), Nat.cast_add, ZMod.natCast_self, add_zero]
  · rw [if_neg fun h => hc ((cmp_gt_iff hb.1 ha.1).1 h)]
    obtain ⟨h3, h4⟩ := sbbLoop_value ha.1 hb.1 (by omega)
    refine ⟨⟨h3, by omega⟩, ?_⟩
    rw [h4, Nat.cast_sub (by omega)]

theorem neg_canon {a : List ℕ} (ha : Canon p n a) : Canon p n (neg P a) ∧ (value (neg P a) : ZMod p) = -value a := by
  have ha' := ha.2
  unfold neg
  by_cases hc : isZero a = true
  · rw [if_pos hc]
    refine ⟨ha, ?_⟩
    rw [(isZero_iff ha.1).1 hc]
    simp
  · rw [if_neg hc]
    have h0 : value a ≠ 0 := fun h => hc ((isZero_iff ha.1).2 h)
    obtain ⟨h3, h4⟩ := sbbLoop_value hP.limbs ha.1 (by rw [hP.modulus]; omega)
    rw [hP.modulus] at h4
    refine ⟨⟨h3, by omega⟩, ?_⟩
    rw [h4, Nat.cast_sub (by omega), ZMod.natCast_self, zero_sub]

theorem mul_canon {a b : List ℕ} (ha : Canon p n a) (hb : Limbs n b) :
    Canon p n (mul P a b) ∧ (value (mul P a b) : ZMod p) * (2 ^ (64 * n) : ℕ) = value a * value b := by
  have ha' := ha.2
  have hl := hP.limbs.1
  obtain ⟨h1, h2, h3⟩ := mulRound_fold hP ha.1 ha.2 hb.2 (r := List.replicate P.modulus.length 0)
    (by rw [hl]; exact limbs_replicate n) (by rw [value_replicate]; omega)
  obtain ⟨h4, h5⟩ := reduce_spec hP h1 (by omega)
  refine ⟨⟨h4, ?_⟩, ?_⟩
  · rw [mul, h5]
    exact Nat.mod_lt _ hpr.out.pos
  · rw [value_replicate, hb.1] at h3
    rw [mul, h5, ZMod.natCast_mod, h3]
    simp

theorem double_canon {a : List ℕ} (ha : Canon p n a) :
    Canon p n (double P a) ∧ (value (double P a) : ZMod p) = value a + value a := by
  have hf := hP.free
  have ha' := ha.2
  obtain ⟨h1, h2⟩ := mul2Loop_value ha.1 (by omega)
  obtain ⟨h3, h4⟩ := reduce_spec hP h1 (by omega)
  refine ⟨⟨h3, ?_⟩, ?_⟩
  · rw [double, h4]
    exact Nat.mod_lt _ hpr.out.pos
  · rw [double, h4, h2, ZMod.natCast_mod, two_mul, Nat.cast_add]

theorem square_canon {a : List ℕ} (ha : Canon p n a) :
    Canon p n (square P a) ∧ (value (square P a) : ZMod p) * (2 ^ (64 * n) : ℕ) = value a * value a := by
  have hf := hP.free
  have ha' := ha.2
  obtain ⟨n', rfl⟩ : ∃ n', n = n' + 1 := Nat.exists_eq_succ_of_ne_zero (pos hP).ne'
  have hpos : 0 < 2 ^ (64 * (n' + 1)) := by positivity
  obtain ⟨h1, h2⟩ := sqRows_spec (limbs_replicate n') ha.1
  rw [value_replicate, zero_add] at h2
  have hsq := value_sq a
  have hlt : value a * value a < 2 ^ (64 * (2 * (n' + 1))) := by
    rw [show 64 * (2 * (n' + 1)) = 64 * (n' + 1) + 64 * (n' + 1) by ring, pow_add]
    exact Nat.mul_lt_mul'' (value_lt ha.1) (value_lt ha.1)
  have hlen : a.length - 1 = n' := by rw [ha.1.1]; rfl
  simp only [square, hlen]
  have hoff : Limbs (2 * (n' + 1)) (0 :: (sqRows (List.replicate n' 0) a ++ [0])) := by
    refine ⟨by simp [h1.1]; ring, fun x hx => ?_⟩
    rcases List.mem_cons.1 hx with rfl | hx
    · norm_num
    · rcases List.mem_append.1 hx with hx | hx
      · exact h1.2 x hx
      · rw [List.mem_singleton.1 hx]
        norm_num
  have hoffv : value (0 :: (sqRows (List.replicate n' 0) a ++ [0])) = 2 ^ 64 * offDiag a := by
    rw [value, value_append, h2]
    simp [value]
  obtain ⟨h3, h4⟩ := mul2Loop_value hoff (by rw [hoffv]; omega)
  rw [hoffv] at h4
  obtain ⟨h5, h6⟩ := sqDiag_spec h3 ha.1 0
  rw [h4, add_zero, ← hsq, Nat.mod_eq_of_lt hlt] at h6
  rw [ha.1.1]
  obtain ⟨h7, k, hk, h8⟩ := sqRedc_spec hP (n' + 1) 0 (by omega) (c2 := 0)
    (r := sqDiag 0 (mul2Loop 0 (0 :: (sqRows (List.replicate n' 0) a ++ [0]))) a) (by rwa [← two_mul])
  rw [h6, mul_zero, add_zero] at h8
  generalize sqRedc P (n' + 1) (sqDiag 0 (mul2Loop 0 (0 :: (sqRows (List.replicate n' 0) a ++ [0]))) a, 0) = o at *
  have hlt2 : value o.1 + 2 ^ (64 * (n' + 1)) * o.2 < 2 * p := by
    refine Nat.lt_of_mul_lt_mul_left (a := 2 ^ (64 * (n' + 1))) ?_
    rw [h8]
    have e1 : value a * value a ≤ 2 ^ (64 * (n' + 1)) * value a := Nat.mul_le_mul_right _ (value_lt ha.1).le
    have e2 : k * p ≤ 2 ^ (64 * (n' + 1)) * p := Nat.mul_le_mul_right _ hk.le
    have e3 : 2 ^ (64 * (n' + 1)) * value a < 2 ^ (64 * (n' + 1)) * p := Nat.mul_lt_mul_of_pos_left ha' hpos
    rw [show 2 ^ (64 * (n' + 1)) * (2 * p) = 2 ^ (64 * (n' + 1)) * p + 2 ^ (64 * (n' + 1)) * p by ring]
    omega
  have ho : o.2 = 0 := by
    rcases Nat.eq_zero_or_pos o.2 with h | h
    · exact h
    · have : 2 ^ (64 * (n' + 1)) * 1 ≤ 2 ^ (64 * (n' + 1)) * o.2 := Nat.mul_le_mul_left _ h
      omega
  rw [ho, mul_zero, add_zero] at h8 hlt2
  obtain ⟨h9, h10⟩ := reduce_spec hP h7 hlt2
  refine ⟨⟨h9, ?_⟩, ?_⟩
  · rw [h10]
    exact Nat.mod_lt _ hpr.out.pos
  · rw [h10, ZMod.natCast_mod]
    have h11 := congrArg (Nat.cast : ℕ → ZMod p) h8
    rw [Nat.cast_add, Nat.cast_mul, Nat.cast_mul, Nat.cast_mul, ZMod.natCast_self, mul_zero, add_zero] at h11
    rw [← h11]
    ring

theorem intoRepr_canon {a : List ℕ} (ha : Canon p n a) :
    Canon p n (intoRepr P a) ∧ (value (intoRepr P a) : ZMod p) * (2 ^ (64 * n) : ℕ) = value a := by
  obtain ⟨h1, h2, h3⟩ := redcRound_iterate hP P.modulus.length ha.1 ha.2
  exact ⟨⟨h1, h2⟩, by rw [hP.limbs.1] at h3; rwa [intoRepr, hP.limbs.1]⟩

theorem r2_cast : (value P.r2 : ZMod p) = (2 ^ (64 * n) : ℕ) * (2 ^ (64 * n) : ℕ) := by
  rw [hP.r2, ZMod.natCast_mod, ← Nat.cast_mul, ← pow_add]
  congr 2
  ring

theorem r2_canon : Canon p n P.r2 := ⟨hP.r2_limbs, by rw [hP.r2]; exact Nat.mod_lt _ hpr.out.pos⟩

/-! ### Inversion -/

/-- The loops keep `b x = u R2`. -/
def Tied (x R : ZMod p) (u b : List ℕ) : Prop := (value b : ZMod p) * x = value u * R

theorem half_canon {b : List ℕ} (hb : Canon p n b) :
    Canon p n (if isEven b then div2 b else div2 (adcLoop 0 b P.modulus)) ∧
      2 * (value (if isEven b then div2 b else div2 (adcLoop 0 b P.modulus)) : ZMod p) = value b := by
  have hf := hP.free
  have hb' := hb.2
  have ho := odd_modulus hP
  by_cases hc : isEven b = true
  · rw [if_pos hc]
    rw [isEven_iff] at hc
    obtain ⟨h1, h2⟩ := div2_spec hb.1
    refine ⟨⟨h1, by omega⟩, ?_⟩
    have : 2 * (value b / 2) = value b := by omega
    rw [h2]
    exact_mod_cast congrArg (Nat.cast : ℕ → ZMod p) this
  · rw [if_neg hc]
    rw [isEven_iff] at hc
    obtain ⟨h1, h2⟩ := adcLoop_value hb.1 hP.limbs (by rw [hP.modulus]; omega)
    rw [hP.modulus] at h2
    obtain ⟨h3, h4⟩ := div2_spec h1
    refine ⟨⟨h3, by omega⟩, ?_⟩
    have : 2 * ((value b + p) / 2) = value b + p := by omega
    rw [h4, h2]
    have h5 := congrArg (Nat.cast : ℕ → ZMod p) this
    rw [Nat.cast_mul, Nat.cast_add, ZMod.natCast_self, add_zero] at h5
    exact_mod_cast h5

theorem halve_spec {x R : ZMod p} {w : ℕ} (fuel : ℕ) {u b : List ℕ} (hu : Limbs n u) (h0 : 0 < value u) (hfu : value u ≤ fuel)
    (hb : Canon p n b) (ht : Tied x R u b) (hw : (value u).Coprime w) :
    Limbs n (halve P fuel u b).1 ∧ 0 < value (halve P fuel u b).1 ∧ value (halve P fuel u b).1 ≤ value u ∧
      Canon p n (halve P fuel u b).2 ∧ Tied x R (halve P fuel u b).1 (halve P fuel u b).2 ∧
      (value (halve P fuel u b).1).Coprime w := by
  induction fuel generalizing u b with
  | zero => omega
  | succ fuel ih =>
    simp only [halve]
    by_cases hc : isEven u = true
    · rw [if_pos hc]
      rw [isEven_iff] at hc
      obtain ⟨h1, h2⟩ := div2_spec hu
      obtain ⟨h3, h4⟩ := half_canon hP hb
      have h5 : 2 * (value u / 2) = value u := by omega
      obtain ⟨g1, g2, g3, g4⟩ := ih h1 (by omega) (by omega) h3 (by
        have h6 := congrArg (Nat.cast : ℕ → ZMod p) h5
        push_cast at h6
        apply mul_left_cancel₀ (two_ne_zero' hP)
        unfold Tied at ht
        rw [h2]
        linear_combination x * h4 + ht - R * h6) (by
        rw [h2]
        exact Nat.Coprime.coprime_dvd_left ⟨2, by omega⟩ hw)
      exact ⟨g1, g2, by omega, g4⟩
    · rw [if_neg hc]
      exact ⟨hu, h0, le_rfl, hb, ht, hw⟩

theorem invLoop_spec {x R : ZMod p} (fuel0 fuel : ℕ) {u v b c : List ℕ} (hu : Limbs n u) (hv : Limbs n v) (h0 : 0 < value u)
    (hv0 : value v = 0 → value u = 1) (hf0 : value u ≤ fuel0 ∧ value v ≤ fuel0) (hf : value u + value v < fuel)
    (hb : Canon p n b) (hc : Canon p n c) (htu : Tied x R u b) (htv : Tied x R v c) (hco : (value u).Coprime (value v)) :
    ∃ y, invLoop P fuel0 fuel u v b c = some y ∧ Canon p n y ∧ (value y : ZMod p) * x = R := by
  induction fuel generalizing u v b c with
  | zero => omega
  | succ fuel ih =>
    obtain ⟨ho1, ho2⟩ := one_limbs (pos hP)
    simp only [invLoop, hP.limbs.1]
    by_cases hu1 : u = one n
    · rw [if_pos hu1]
      refine ⟨b, rfl, hb, ?_⟩
      unfold Tied at htu
      rw [htu, hu1, ho2]
      simp
    rw [if_neg hu1]
    by_cases hv1 : v = one n
    · rw [if_pos hv1]
      refine ⟨c, rfl, hc, ?_⟩
      unfold Tied at htv
      rw [htv, hv1, ho2]
      simp
    rw [if_neg hv1]
    have hvp : 0 < value v := by
      rcases Nat.eq_zero_or_pos (value v) with h | h
      · exact absurd (value_inj hu ho1 (by rw [hv0 h, ho2])) hu1
      · exact h
    obtain ⟨a1, a2, a3, a4, a5, a6⟩ := halve_spec hP fuel0 hu h0 hf0.1 hb htu hco
    obtain ⟨b1, b2, b3, b4, b5, b6⟩ := halve_spec hP fuel0 hv hvp hf0.2 hc htv a6.symm
    generalize halve P fuel0 u b = ub at *
    generalize halve P fuel0 v c = vc at *
    by_cases hlt : value vc.1 < value ub.1
    · rw [if_pos ((cmp_lt_iff b1 a1).2 hlt)]
      obtain ⟨e1, e2⟩ := sbbLoop_value a1 b1 hlt.le
      obtain ⟨e3, e4⟩ := sub_canon hP a4 b4
      refine ih e1 b1 (by omega) (by omega) (by omega) (by omega) e3 b4 ?_ b5 ?_
      · unfold Tied at *
        rw [e4, e2, Nat.cast_sub hlt.le]
        linear_combination a5 - b5
      · rw [e2]
        exact (Nat.coprime_sub_self_left hlt.le).2 b6.symm
    · rw [if_neg fun h => hlt ((cmp_lt_iff b1 a1).1 h)]
      have hle : value ub.1 ≤ value vc.1 := by omega
      obtain ⟨e1, e2⟩ := sbbLoop_value b1 a1 hle
      obtain ⟨e3, e4⟩ := sub_canon hP b4 a4
      refine ih a1 e1 a2 (fun h => ?_) (by omega) (by omega) a4 e3 a5 ?_ ?_
      · rw [show value vc.1 = value ub.1 by omega] at b6
        exact (Nat.coprime_self _).1 b6
      · unfold Tied at *
        rw [e4, e2, Nat.cast_sub hle]
        linear_combination b5 - a5
      · rw [e2]
        exact (Nat.coprime_sub_self_right hle).2 b6.symm

theorem inverse_canon {a : List ℕ} (ha : Canon p n a) (h0 : value a ≠ 0) :
    ∃ y, inverse P a = some y ∧ Canon p n y ∧
      (value y : ZMod p) * value a = (2 ^ (64 * n) : ℕ) * (2 ^ (64 * n) : ℕ) := by
  have hf := hP.free
  have ha' := ha.2
  unfold inverse
  rw [if_neg fun h => h0 ((isZero_iff ha.1).1 h), hP.limbs.1]
  refine invLoop_spec hP _ _ ha.1 hP.limbs (by omega) (fun h => ?_) ?_ ?_ (r2_canon hP) ⟨limbs_replicate n, ?_⟩ ?_ ?_ ?_
  · rw [hP.modulus] at h
    exact absurd h hpr.out.pos.ne'
  · rw [hP.modulus]
    omega
  · rw [hP.modulus, pow_succ]
    omega
  · rw [value_replicate]
    exact hpr.out.pos
  · unfold Tied
    rw [r2_cast hP]
    ring
  · unfold Tied
    rw [value_replicate, hP.modulus, ZMod.natCast_self]
    simp
  · rw [hP.modulus]
    exact (Nat.coprime_of_lt_prime h0 ha' hpr.out).symm

end

end Verif.ArkFp
