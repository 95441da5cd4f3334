import Verif.Model.EdProj

/-!
# The signed digits of `curve25519-dalek`
-/

namespace Verif

/-- The number with digits `l` in base `b`, least significant first. -/
def Spec.digits (b : ℤ) : List ℤ → ℤ
  | [] => 0
  | a :: l => a + b * Spec.digits b l

namespace EdProj

open Spec (digits)

theorem digits_replicate (b : ℤ) (n : ℕ) (l : List ℤ) : digits b (List.replicate n 0 ++ l) = b ^ n * digits b l := by
  induction n with
  | zero => simp
  | succ n ih =>
    rw [List.replicate_succ, List.cons_append, digits, ih, pow_succ]
    ring

theorem digits_append (b : ℤ) (l l' : List ℤ) : digits b (l ++ l') = digits b l + b ^ l.length * digits b l' := by
  induction l with
  | nil => simp [digits]
  | cons a l ih =>
    rw [List.cons_append, digits, digits, ih, List.length_cons, pow_succ]
    ring

theorem digits_eq_sum (b : ℤ) (l : List ℤ) (n : ℕ) (h : l.length ≤ n) :
    digits b l = ∑ i ∈ Finset.range n, b ^ i * l.getD i 0 := by
  induction l generalizing n with
  | nil => simp [digits]
  | cons a l ih =>
    obtain ⟨n, rfl⟩ := Nat.exists_eq_succ_of_ne_zero (show n ≠ 0 by rintro rfl; simp at h)
    rw [digits, Finset.sum_range_succ', ih n (by simpa using h), Finset.mul_sum, add_comm]
    congr 1
    · refine Finset.sum_congr rfl fun i _ => ?_
      rw [List.getD_cons_succ, pow_succ]
      ring
    · simp

/-- What `select` needs of a digit in non-adjacent form: zero, or odd and less than half of the width. -/
def NafDigit (w : ℕ) (d : ℤ) : Prop := d = 0 ∨ d % 2 = 1 ∧ d.natAbs < 2 ^ (w - 1)

theorem nafFrom_spec {w x : ℕ} (hw : 2 ≤ w) (hx : x < 2 ^ 255) (k pos carry : ℕ) (hk : 256 ≤ pos + k) (hc : carry ≤ 1)
    (hp : carry = 1 → pos ≤ 255) :
    digits 2 (nafFrom w x k pos carry) = ((x / 2 ^ pos + carry : ℕ) : ℤ) ∧ (∀ d ∈ nafFrom w x k pos carry, NafDigit w d) ∧
      (nafFrom w x k pos carry).length = 256 - pos := by
  have hbig : ∀ q, 255 ≤ q → x / 2 ^ q = 0 := fun q hq =>
    Nat.div_eq_of_lt (hx.trans_le (Nat.pow_le_pow_right (by norm_num) hq))
  have hsmall : ∀ q, 2 ^ q ≤ x → q < 255 := fun q hq => (Nat.pow_lt_pow_iff_right (by norm_num)).1 (hq.trans_lt hx)
  have hnil : 256 ≤ pos → digits 2 [] = ((x / 2 ^ pos + carry : ℕ) : ℤ) ∧ (∀ d ∈ ([] : List ℤ), NafDigit w d) ∧
      ([] : List ℤ).length = 256 - pos := by
    intro h
    have hc0 : carry = 0 := by
      rcases Nat.le_one_iff_eq_zero_or_eq_one.1 hc with h0 | h0
      · exact h0
      · have := hp h0
        omega
    refine ⟨?_, by simp, by simp; omega⟩
    rw [hbig pos (by omega), hc0]
    rfl
  induction k generalizing pos carry with
  | zero => exact hnil (by omega)
  | succ k ih =>
    rw [nafFrom]
    by_cases h256 : 256 ≤ pos
    · rw [if_pos h256]
      exact hnil h256
    rw [if_neg h256]
    obtain ⟨m, hm⟩ : ∃ m, 2 ^ w = 4 * m := ⟨2 ^ (w - 2), by rw [show (4 : ℕ) = 2 ^ 2 by norm_num, ← pow_add]; congr 1; omega⟩
    have hm0 : 0 < m := by
      have : 0 < 2 ^ w := Nat.two_pow_pos w
      omega
    have hm1 : 2 ^ (w - 1) = 2 * m := by
      have : 2 ^ w = 2 ^ (w - 1) * 2 := by rw [← pow_succ]; congr 1; omega
      omega
    simp only []
    generalize hq : x / 2 ^ pos = q
    have hq1 : x / 2 ^ (pos + 1) = q / 2 := by rw [pow_add, ← Nat.div_div_eq_div_mul, hq, pow_one]
    have hqw : x / 2 ^ (pos + w) = q / (4 * m) := by rw [pow_add, ← Nat.div_div_eq_div_mul, hq, hm]
    have hge : ∀ e c : ℕ, c = 2 ^ e → c ≤ q → pos + e < 255 := by
      intro e c hc h
      refine hsmall _ ?_
      rw [pow_add]
      rw [hc, ← hq] at h
      calc 2 ^ pos * 2 ^ e ≤ 2 ^ pos * (x / 2 ^ pos) := Nat.mul_le_mul_left _ h
        _ ≤ x := Nat.mul_div_le _ _
    have hmod := Nat.mod_lt q (show 0 < 4 * m by omega)
    have hdm := Nat.div_add_mod q (4 * m)
    rw [hm]
    generalize hb : q % (4 * m) = b at hmod hdm
    have hpar : b % 2 = q % 2 := by
      rw [← hdm, show 4 * m * (q / (4 * m)) = 2 * (2 * m * (q / (4 * m))) by ring]
      omega
    have hnext : ∀ pos' c', pos < pos' → c' ≤ 1 → (c' = 1 → pos' ≤ 255) → _ := fun pos' c' h1 h2 h3 =>
      ih pos' c' (by omega) h2 h3 (fun h => by
        have hc0 : c' = 0 := by
          rcases Nat.le_one_iff_eq_zero_or_eq_one.1 h2 with h0 | h0
          · exact h0
          · have := h3 h0
            omega
        refine ⟨?_, by simp, by simp; omega⟩
        rw [hbig pos' (by omega), hc0]
        rfl)
    split
    · rename_i hev
      obtain ⟨h1, h2, h3⟩ := hnext (pos + 1) carry (by omega) hc (fun h => by
        have := hge 0 1 rfl (by omega)
        omega)
      refine ⟨?_, ?_, ?_⟩
      · rw [digits, h1, hq1]
        push_cast
        have : (2 * ((q / 2 : ℕ) + carry : ℕ) : ℕ) = q + carry := by
          rcases Nat.le_one_iff_eq_zero_or_eq_one.1 hc with h0 | h0 <;> omega
        zify at this
        linarith
      · intro d hd
        rcases List.mem_cons.1 hd with rfl | hd
        · exact .inl rfl
        · exact h2 d hd
      · rw [List.length_cons, h3]
        omega
    · rename_i hodd
      have key : ∀ (d : ℤ) (c' : ℕ), c' ≤ 1 → (c' = 1 → pos + w ≤ 255) → d = ((carry + b : ℕ) : ℤ) - 4 * m * c' → NafDigit w d →
          digits 2 (d :: (List.replicate (min (w - 1) (255 - pos)) 0 ++ nafFrom w x k (pos + w) c')) = ((q + carry : ℕ) : ℤ) ∧
          (∀ e ∈ d :: (List.replicate (min (w - 1) (255 - pos)) 0 ++ nafFrom w x k (pos + w) c'), NafDigit w e) ∧
          (d :: (List.replicate (min (w - 1) (255 - pos)) 0 ++ nafFrom w x k (pos + w) c')).length = 256 - pos := by
        intro d c' h1 h2 h3 h4
        obtain ⟨e1, e2, e3⟩ := hnext (pos + w) c' (by omega) h1 h2
        refine ⟨?_, ?_, ?_⟩
        · rw [digits, digits_replicate, e1, hqw]
          have hpow : (2 : ℤ) * (2 ^ (w - 1) * ((q / (4 * m) + c' : ℕ) : ℤ)) = 4 * m * ((q / (4 * m) + c' : ℕ) : ℤ) := by
            have : (2 : ℤ) ^ (w - 1) = 2 * m := by exact_mod_cast hm1
            rw [this]
            ring
          have hmin : (2 : ℤ) ^ min (w - 1) (255 - pos) * ((q / (4 * m) + c' : ℕ) : ℤ) = 2 ^ (w - 1) * ((q / (4 * m) + c' : ℕ) : ℤ) := by
            by_cases hle : pos + w ≤ 256
            · rw [min_eq_left (by omega)]
            · have h0 : q / (4 * m) = 0 := by rw [← hqw]; exact hbig _ (by omega)
              have h0' : c' = 0 := by
                rcases Nat.le_one_iff_eq_zero_or_eq_one.1 h1 with h0 | h0
                · exact h0
                · have := h2 h0
                  omega
              rw [h0, h0']
              simp
          rw [hmin, hpow, h3]
          have : ((4 * m * (q / (4 * m)) + b : ℕ) : ℤ) = (q : ℤ) := by exact_mod_cast hdm
          push_cast at this ⊢
          linarith
        · intro e he
          rcases List.mem_cons.1 he with rfl | he
          · exact h4
          · rcases List.mem_append.1 he with he | he
            · exact .inl (List.eq_of_mem_replicate he)
            · exact e2 e he
        · rw [List.length_cons, List.length_append, List.length_replicate, e3]
          omega
      split
      · rename_i hlt
        refine key _ 0 (by omega) (by omega) (by simp) (.inr ⟨by omega, ?_⟩)
        rw [hm1]
        omega
      · rename_i hge'
        refine key _ 1 le_rfl (fun _ => ?_) (by
          have : ((2 : ℤ) ^ w) = 4 * m := by exact_mod_cast hm
          rw [this, Nat.cast_one, mul_one]) (.inr ⟨?_, ?_⟩)
        · have := hge (w - 1) (2 * m) hm1.symm (by omega)
          omega
        · have : ((2 : ℤ) ^ w) = 4 * m := by exact_mod_cast hm
          rw [this]
          omega
        · have : ((2 : ℤ) ^ w) = 4 * m := by exact_mod_cast hm
          rw [this, hm1]
          omega

theorem naf_spec {w x : ℕ} (hw : 2 ≤ w) (hx : x < 2 ^ 255) :
    digits 2 (naf w x) = x ∧ (∀ d ∈ naf w x, NafDigit w d) ∧ (naf w x).length = 256 := by
  have := nafFrom_spec hw hx 256 0 0 (by omega) (by omega) (by omega)
  simpa [naf] using this

theorem recenter_digits (c : ℤ) (l : List ℤ) (h : l ≠ []) : digits 16 (recenter c l) = c + digits 16 l := by
  induction l generalizing c with
  | nil => exact absurd rfl h
  | cons a l ih =>
    match l, ih with
    | [], _ => simp [recenter, digits]; ring
    | b :: l, ih =>
      rw [recenter, digits, ih _ (by simp), digits, digits, digits]
      ring

theorem recenter_length (c : ℤ) (l : List ℤ) : (recenter c l).length = l.length := by
  induction l generalizing c with
  | nil => rfl
  | cons a l ih =>
    match l, ih with
    | [], _ => rfl
    | b :: l, ih => rw [recenter, List.length_cons, ih, List.length_cons, List.length_cons, List.length_cons]

theorem recenter_bound (c : ℤ) (l : List ℤ) (hc : 0 ≤ c ∧ c ≤ 1) (hl : ∀ a ∈ l, 0 ≤ a ∧ a < 16) (hlast : ∀ a ∈ l.getLast?, a ≤ 7) :
    ∀ d ∈ recenter c l, d.natAbs ≤ 8 := by
  induction l generalizing c with
  | nil => simp [recenter]
  | cons a l ih =>
    have ha := hl a (by simp)
    match l, ih with
    | [], _ =>
      have := hlast a (by simp)
      simp only [recenter, List.mem_singleton, forall_eq]
      omega
    | b :: l, ih =>
      intro d hd
      rw [recenter] at hd
      rcases List.mem_cons.1 hd with rfl | hd
      · omega
      · refine ih _ (by omega) (fun x hx => hl x (List.mem_cons_of_mem _ hx)) (fun x hx => hlast x ?_) d hd
        rwa [List.getLast?_cons_cons]

theorem nibbles_digits (k x : ℕ) :
    digits 16 ((List.range k).map fun i => ((x / 16 ^ i % 16 : ℕ) : ℤ)) = ((x % 16 ^ k : ℕ) : ℤ) := by
  induction k generalizing x with
  | zero => simp [digits, Nat.mod_one]
  | succ k ih =>
    rw [List.range_succ_eq_map, List.map_cons, List.map_map, digits]
    have : ((fun i => ((x / 16 ^ i % 16 : ℕ) : ℤ)) ∘ Nat.succ) = fun i => (((x / 16) / 16 ^ i % 16 : ℕ) : ℤ) := by
      funext i
      simp only [Function.comp]
      rw [Nat.div_div_eq_div_mul, Nat.succ_eq_add_one, pow_succ']
    rw [this, ih, pow_zero, Nat.div_one, pow_succ', Nat.mod_mul]
    push_cast
    ring

theorem radix16_spec {x : ℕ} (hx : x < 2 ^ 255) :
    digits 16 (radix16 x) = x ∧ (∀ d ∈ radix16 x, d.natAbs ≤ 8) ∧ (radix16 x).length = 64 := by
  refine ⟨?_, ?_, ?_⟩
  · rw [radix16, recenter_digits _ _ (by simp), nibbles_digits, Nat.mod_eq_of_lt (hx.trans (by norm_num)), zero_add]
  · refine recenter_bound _ _ (by simp) ?_ ?_
    · intro a ha
      obtain ⟨i, -, rfl⟩ := List.mem_map.1 ha
      omega
    · intro a ha
      rw [show (64 : ℕ) = 63 + 1 from rfl, List.range_succ, List.map_append, List.map_singleton, List.getLast?_append,
        List.getLast?_singleton] at ha
      simp only [Option.some_or, Option.mem_some_iff] at ha
      have : x / 16 ^ 63 < 8 := Nat.div_lt_of_lt_mul (hx.trans_eq (by norm_num))
      omega
  · rw [radix16, recenter_length]
    simp

theorem radixLoop_spec {w x : ℕ} (hw : 1 ≤ w) (k i carry : ℕ) (hc : carry ≤ 1) :
    digits (2 ^ w) (radixLoop w x k i carry).1 + (2 ^ w) ^ k * (radixLoop w x k i carry).2 =
      carry + ((x / 2 ^ (i * w) % (2 ^ w) ^ k : ℕ) : ℤ) ∧
    (∀ d ∈ (radixLoop w x k i carry).1, -(2 ^ w / 2) ≤ d ∧ d < 2 ^ w / 2) ∧ (radixLoop w x k i carry).1.length = k ∧
    (radixLoop w x k i carry).2 ≤ 1 := by
  induction k generalizing i carry with
  | zero => simp [radixLoop, digits, Nat.mod_one, hc]
  | succ k ih =>
    rw [radixLoop]
    simp only []
    obtain ⟨H, hH⟩ : ∃ H, 2 ^ w = 2 * H := ⟨2 ^ (w - 1), by rw [← pow_succ']; congr 1; omega⟩
    have hHz : (2 : ℤ) ^ w = 2 * H := by exact_mod_cast hH
    have hH0 : 0 < H := by
      have : 0 < 2 ^ w := Nat.two_pow_pos w
      omega
    have hqw : x / 2 ^ ((i + 1) * w) = x / 2 ^ (i * w) / (2 * H) := by
      rw [Nat.add_mul, one_mul, pow_add, ← Nat.div_div_eq_div_mul, hH]
    rw [hH]
    generalize hq : x / 2 ^ (i * w) = q at hqw
    have hmod := Nat.mod_lt q (show 0 < 2 * H by omega)
    generalize hco : carry + q % (2 * H) = co
    have hdm := Nat.div_add_mod (co + H) (2 * H)
    have hlt := Nat.mod_lt (co + H) (show 0 < 2 * H by omega)
    have h2H : 2 * H / 2 = H := by omega
    rw [h2H]
    have hc1 : (co + H) / (2 * H) ≤ 1 := by
      rw [← Nat.lt_succ_iff]
      apply Nat.div_lt_of_lt_mul
      omega
    obtain ⟨h1, h2, h3, h4⟩ := ih (i + 1) _ hc1
    generalize hcc : (co + H) / (2 * H) = c1 at *
    rw [hqw, hH] at h1
    rw [hHz] at h1 h2 ⊢
    refine ⟨?_, ?_, ?_, h4⟩
    · rw [digits]
      have e1 : q % (2 * H) ^ (k + 1) = q % (2 * H) + 2 * H * (q / (2 * H) % (2 * H) ^ k) := by rw [pow_succ', Nat.mod_mul]
      rw [e1]
      have e2 : ((carry + q % (2 * H) : ℕ) : ℤ) = co := by exact_mod_cast hco
      push_cast at h1 e2 ⊢
      rw [pow_succ]
      linear_combination 2 * H * h1 - e2
    · intro d hd
      have hhalf : (2 * (H : ℤ)) / 2 = H := by omega
      rcases List.mem_cons.1 hd with rfl | hd
      · rw [hhalf]
        have : ((2 * H * c1 + (co + H) % (2 * H) : ℕ) : ℤ) = co + H := by exact_mod_cast hdm
        push_cast at this
        have h5 : (((co + H) % (2 * H) : ℕ) : ℤ) < 2 * H := by exact_mod_cast hlt
        have h6 : (0 : ℤ) ≤ (((co + H) % (2 * H) : ℕ) : ℤ) := Int.natCast_nonneg _
        push_cast at h5 h6
        constructor <;> linarith
      · exact h2 d hd
    · rw [List.length_cons, h3]

theorem digits_lower {W H : ℤ} (hW : 1 ≤ W) (l : List ℤ) (h : ∀ d ∈ l, -H ≤ d) : -(H * (W ^ l.length - 1)) ≤ (W - 1) * digits W l := by
  induction l with
  | nil => simp [digits]
  | cons a l ih =>
    have h1 := ih fun d hd => h d (List.mem_cons_of_mem _ hd)
    have h2 := h a (by simp)
    rw [digits, List.length_cons, pow_succ]
    nlinarith [mul_le_mul_of_nonneg_left h1 (show 0 ≤ W by omega), mul_le_mul_of_nonneg_left h2 (show 0 ≤ W - 1 by omega)]

theorem addLast_zero (l : List ℤ) : addLast 0 l = l := by
  induction l with
  | nil => rfl
  | cons a l ih =>
    match l, ih with
    | [], _ => simp [addLast]
    | b :: l, ih => rw [addLast, ih]

theorem radix2w_spec {w x : ℕ} (hw : w = 6 ∨ w = 7 ∨ w = 8) (hx : x < 2 ^ 255) :
    digits (2 ^ w) (radix2w w x) = x ∧ (∀ d ∈ radix2w w x, d.natAbs ≤ 2 ^ w / 2) ∧
    (radix2w w x).length = (256 + w - 1) / w + if w = 8 then 1 else 0 := by
  obtain ⟨h1, h2, h3, h4⟩ := radixLoop_spec (x := x) (show 1 ≤ w by omega) ((256 + w - 1) / w) 0 0 (by omega)
  have hlow := digits_lower (W := 2 ^ w) (one_le_pow₀ (by norm_num)) _ fun d hd => (h2 d hd).1
  rw [h3] at hlow
  unfold radix2w
  simp only []
  generalize radixLoop w x ((256 + w - 1) / w) 0 0 = p at *
  have hx' : ((x : ℕ) : ℤ) < 2 ^ 255 := by exact_mod_cast hx
  have hdig : ∀ d ∈ p.1, d.natAbs ≤ 2 ^ w / 2 := by
    intro d hd
    have := h2 d hd
    rcases hw with rfl | rfl | rfl <;> norm_num at this ⊢ <;> omega
  by_cases h8 : w = 8
  · subst h8
    rw [if_pos rfl, if_pos rfl]
    refine ⟨?_, ?_, ?_⟩
    · rw [digits_append, h3, digits, digits]
      rw [Nat.zero_mul, pow_zero, Nat.div_one, Nat.mod_eq_of_lt (hx.trans (by norm_num))] at h1
      push_cast at h1 ⊢
      linear_combination h1
    · intro d hd
      rcases List.mem_append.1 hd with hd | hd
      · exact hdig d hd
      · rw [List.mem_singleton.1 hd]
        norm_num
        omega
    · rw [List.length_append, h3]
      rfl
  · rw [if_neg h8, if_neg h8]
    have hpow : (2 : ℕ) ^ 255 < (2 ^ w) ^ ((256 + w - 1) / w) := by
      rcases hw with rfl | rfl | rfl <;> norm_num at *
    rw [Nat.zero_mul, pow_zero, Nat.div_one, Nat.mod_eq_of_lt (hx.trans hpow)] at h1
    have hp0 : p.2 = 0 := by
      rcases Nat.le_one_iff_eq_zero_or_eq_one.1 h4 with h | h
      · exact h
      · exfalso
        rw [h] at h1
        have hd : digits (2 ^ w) p.1 = x - (2 ^ w) ^ ((256 + w - 1) / w) := by
          push_cast at h1
          linarith
        rw [hd] at hlow
        rcases hw with rfl | rfl | rfl
        · norm_num at hlow hx'
          omega
        · norm_num at hlow hx'
          omega
        · exact h8 rfl
    rw [hp0, Nat.cast_zero, mul_zero, addLast_zero]
    rw [hp0] at h1
    refine ⟨?_, hdig, by rw [h3]; rfl⟩
    push_cast at h1
    linarith

end EdProj

end Verif
