import Verif.Model.Base64
import Verif.Lemmas.Basic

/-! Base64: `decode` inverts `encode`, and accepts exactly encodings up to missing padding. -/

namespace Verif.Base64

theorem unsym_sym : ∀ n < 64, unsym (sym n) = some n := by decide

theorem sym_ne_pad : ∀ n < 64, sym n ≠ pad := by decide

set_option maxRecDepth 8000 in
theorem unsym_some_aux : ∀ c < 256, ∀ n, unsym (UInt8.ofNat c) = some n → n < 64 ∧ sym n = UInt8.ofNat c := by
  intro c hc n
  have : ∀ c < 256, unsym (UInt8.ofNat c) = none ∨
      ((unsym (UInt8.ofNat c)).getD 0 < 64 ∧ sym ((unsym (UInt8.ofNat c)).getD 0) = UInt8.ofNat c) := by decide
  have h := this c hc
  intro h'
  rw [h'] at h
  simpa using h

theorem unsym_some {b : UInt8} {n : ℕ} (h : unsym b = some n) : n < 64 ∧ sym n = b := by
  have := unsym_some_aux b.toNat (UInt8.toNat_lt b) n (by simpa using h)
  simpa using this

/-- The sextets of a byte string. -/
def sextets : List UInt8 → List ℕ
  | [] => []
  | [a] => [a.toNat / 4, a.toNat % 4 * 16]
  | [a, b] => [a.toNat / 4, a.toNat % 4 * 16 + b.toNat / 16, b.toNat % 16 * 4]
  | a :: b :: c :: l =>
    a.toNat / 4 :: (a.toNat % 4 * 16 + b.toNat / 16) :: (b.toNat % 16 * 4 + c.toNat / 64) :: (c.toNat % 64) :: sextets l

/-- Number of padding symbols. -/
def npad (l : List UInt8) : ℕ := (3 - l.length % 3) % 3

theorem encode_eq (l : List UInt8) : encode l = (sextets l).map sym ++ List.replicate (npad l) pad := by
  fun_induction sextets l with
  | case1 => rfl
  | case2 => rfl
  | case3 => rfl
  | case4 a b c l ih =>
    have : npad (a :: b :: c :: l) = npad l := by unfold npad; simp only [List.length_cons]; omega
    rw [encode, ih, this]
    simp

theorem sextets_lt (l : List UInt8) : ∀ n ∈ sextets l, n < 64 := by
  fun_induction sextets l with
  | case1 => simp
  | case2 a =>
    have := UInt8.toNat_lt a
    intro n hn
    simp only [List.mem_cons, List.not_mem_nil, or_false] at hn
    omega
  | case3 a b =>
    have := UInt8.toNat_lt a
    have := UInt8.toNat_lt b
    intro n hn
    simp only [List.mem_cons, List.not_mem_nil, or_false] at hn
    omega
  | case4 a b c l ih =>
    have := UInt8.toNat_lt a
    have := UInt8.toNat_lt b
    have := UInt8.toNat_lt c
    intro n hn
    simp only [List.mem_cons] at hn
    rcases hn with hn | hn | hn | hn | hn
    iterate 4 omega
    exact ih n hn

theorem ofNat_eq {a : UInt8} {n : ℕ} (h : n = a.toNat) : UInt8.ofNat n = a := by subst h; simp

theorem joinSextets_sextets (l : List UInt8) : joinSextets (sextets l) = some l := by
  fun_induction sextets l with
  | case1 => rfl
  | case2 a =>
    have := UInt8.toNat_lt a
    rw [joinSextets, if_pos (by omega), ofNat_eq (a := a) (by omega)]
  | case3 a b =>
    have := UInt8.toNat_lt a
    have := UInt8.toNat_lt b
    rw [joinSextets, if_pos (by omega), ofNat_eq (a := a) (by omega), ofNat_eq (a := b) (by omega)]
  | case4 a b c l ih =>
    have := UInt8.toNat_lt a
    have := UInt8.toNat_lt b
    have := UInt8.toNat_lt c
    rw [joinSextets, ih, ofNat_eq (a := a) (by omega), ofNat_eq (a := b) (by omega), ofNat_eq (a := c) (by omega)]
    rfl

theorem sextets_joinSextets (s : List ℕ) (hs : ∀ n ∈ s, n < 64) (l : List UInt8) (h : joinSextets s = some l) :
    sextets l = s := by
  fun_induction joinSextets s generalizing l with
  | case1 => cases h; rfl
  | case2 => cases h
  | case3 a b hb =>
    cases h
    have ha := hs a (by simp)
    have hb := hs b (by simp)
    simp only [sextets, UInt8.toNat_ofNat', List.cons.injEq, and_true]
    omega
  | case4 => cases h
  | case5 a b c hc =>
    cases h
    have ha := hs a (by simp)
    have hb := hs b (by simp)
    have hb := hs c (by simp)
    simp only [sextets, UInt8.toNat_ofNat', List.cons.injEq, and_true]
    omega
  | case6 => cases h
  | case7 a b c d s ih =>
    rw [Option.map_eq_some_iff] at h
    obtain ⟨t, ht, rfl⟩ := h
    have ha := hs a (by simp)
    have hb := hs b (by simp)
    have hc := hs c (by simp)
    have hd := hs d (by simp)
    have := ih (fun n hn => hs n (by simp [hn])) t ht
    simp only [sextets, UInt8.toNat_ofNat', List.cons.injEq, this, and_true]
    omega

theorem length_sextets (l : List UInt8) : (sextets l).length = l.length / 3 * 4 + (if l.length % 3 = 0 then 0 else l.length % 3 + 1) := by
  fun_induction sextets l with
  | case1 => rfl
  | case2 => simp
  | case3 => simp
  | case4 a b c l ih =>
    simp only [List.length_cons, ih]
    have h1 : (l.length + 1 + 1 + 1) % 3 = l.length % 3 := by omega
    have h2 : (l.length + 1 + 1 + 1) / 3 = l.length / 3 + 1 := by omega
    simp only [h1, h2]
    split <;> omega

theorem length_encode (l : List UInt8) : (encode l).length = (l.length + 2) / 3 * 4 := by
  rw [encode_eq, List.length_append, List.length_map, length_sextets, List.length_replicate, npad]
  split <;> omega

theorem mapM_unsym_map_sym (s : List ℕ) (hs : ∀ n ∈ s, n < 64) : (s.map sym).mapM unsym = some s := by
  induction s with
  | nil => rfl
  | cons a s ih =>
    rw [List.map_cons, List.mapM_cons, unsym_sym a (hs a (by simp)), ih fun n hn => hs n (by simp [hn])]
    rfl

theorem map_sym_of_mapM (body : List UInt8) (s : List ℕ) (h : body.mapM unsym = some s) :
    body = s.map sym ∧ ∀ n ∈ s, n < 64 := by
  induction body generalizing s with
  | nil =>
    simp only [List.mapM_nil] at h
    cases h; simp
  | cons b body ih =>
    rw [List.mapM_cons] at h
    cases hb : unsym b with
    | none => rw [hb] at h; cases h
    | some n =>
      cases ht : body.mapM unsym with
      | none => rw [hb, ht] at h; cases h
      | some t =>
        rw [hb, ht] at h
        cases h
        obtain ⟨h1, h2⟩ := ih t ht
        obtain ⟨h3, h4⟩ := unsym_some hb
        refine ⟨by rw [List.map_cons, h4, ← h1], ?_⟩
        intro m hm
        rcases List.mem_cons.1 hm with rfl | hm
        · exact h3
        · exact h2 m hm

theorem takeWhile_body (s : List ℕ) (hs : ∀ n ∈ s, n < 64) (j : ℕ) :
    (s.map sym ++ List.replicate j pad).takeWhile (· ≠ pad) = s.map sym ∧
    (s.map sym ++ List.replicate j pad).dropWhile (· ≠ pad) = List.replicate j pad := by
  have h : ∀ x ∈ s.map sym, (decide (x ≠ pad)) = true := by
    intro x hx
    obtain ⟨n, hn, rfl⟩ := List.mem_map.1 hx
    simpa using sym_ne_pad n (hs n hn)
  constructor
  · rw [List.takeWhile_append_of_pos h]
    cases j <;> simp [List.replicate_succ]
  · rw [List.dropWhile_append_of_pos h]
    cases j <;> simp [List.replicate_succ]

/-- `decode` accepts exactly the encodings with some (or no) padding symbols missing at the end. -/
theorem decode_eq_some_iff (s b : List UInt8) : decode s = some b ↔ ∃ j, s ++ List.replicate j pad = encode b := by
  constructor
  · intro h
    unfold decode at h
    simp only at h
    split at h
    · cases h
    rename_i h1
    split at h
    · cases h
    rename_i h2
    split at h
    · cases h
    rename_i h3
    rw [Option.bind_eq_some_iff] at h
    obtain ⟨t, ht, hb⟩ := h
    obtain ⟨e1, e2⟩ := map_sym_of_mapM _ _ ht
    have e3 := sextets_joinSextets t e2 b hb
    have htail : s.dropWhile (· ≠ pad) = List.replicate (s.dropWhile (· ≠ pad)).length pad := by
      rw [List.eq_replicate_iff]
      refine ⟨rfl, fun x hx => ?_⟩
      by_contra hne
      exact h2 (List.any_eq_true.2 ⟨x, hx, by simpa using hne⟩)
    have hs : s = t.map sym ++ List.replicate (s.dropWhile (· ≠ pad)).length pad := by
      conv_lhs => rw [← List.takeWhile_append_dropWhile (p := (· ≠ pad)) (l := s)]
      rw [← e1, ← htail]
    generalize hk : (s.dropWhile (· ≠ pad)).length = k at hs h3
    have hlen : t.length = b.length / 3 * 4 + (if b.length % 3 = 0 then 0 else b.length % 3 + 1) := by
      rw [← e3, length_sextets]
    have hbody : (s.takeWhile (· ≠ pad)).length = t.length := by rw [e1]; simp
    have hnil : s.dropWhile (· ≠ pad) ≠ [] ↔ k ≠ 0 := by
      rw [← hk, ne_eq, ne_eq, List.length_eq_zero_iff]
    rw [hbody, hnil] at h3
    have hk3 : k ≤ npad b := by
      unfold npad
      split at hlen <;> omega
    refine ⟨npad b - k, ?_⟩
    rw [encode_eq, e3, hs, List.append_assoc, List.replicate_append_replicate]
    congr 2
    omega
  · rintro ⟨j, h⟩
    rw [encode_eq] at h
    have hlt := sextets_lt b
    obtain ⟨k, hk, hs⟩ : ∃ k, k + j = npad b ∧ s = (sextets b).map sym ++ List.replicate k pad := by
      have hj : j ≤ npad b := by
        by_contra hj
        have h2 := congrArg List.reverse h
        rw [List.reverse_append, List.reverse_append, List.reverse_replicate, List.reverse_replicate] at h2
        have h3 : List.replicate j pad = List.replicate (npad b) pad ++ List.replicate (j - npad b) pad := by
          rw [List.replicate_append_replicate]; congr 1; omega
        rw [h3, List.append_assoc] at h2
        have h4 := List.append_cancel_left h2
        obtain ⟨i, hi⟩ : ∃ i, j - npad b = i + 1 := ⟨j - npad b - 1, by omega⟩
        rw [hi, List.replicate_succ, List.cons_append] at h4
        have : pad ∈ (List.map sym (sextets b)).reverse := by rw [← h4]; simp
        rw [List.mem_reverse, List.mem_map] at this
        obtain ⟨n, hn, hp⟩ := this
        exact sym_ne_pad n (hlt n hn) hp
      refine ⟨npad b - j, by omega, ?_⟩
      have h3 : List.replicate (npad b) pad = List.replicate (npad b - j) pad ++ List.replicate j pad := by
        rw [List.replicate_append_replicate]; congr 1; omega
      rw [h3, ← List.append_assoc] at h
      exact List.append_cancel_right h
    obtain ⟨ht, hd⟩ := takeWhile_body _ hlt k
    have hlen := length_sextets b
    subst hs
    unfold decode
    simp only [ht, hd]
    rw [if_neg, if_neg, if_neg, mapM_unsym_map_sym _ hlt]
    · exact joinSextets_sextets b
    · rw [List.length_map, List.length_replicate, hlen]
      unfold npad at hk
      rintro ⟨h1, h2⟩
      have : k ≠ 0 := by rintro rfl; exact h1 rfl
      split at h2 <;> omega
    · simp
    · rw [List.length_append, List.length_map, List.length_replicate, hlen]
      unfold npad at hk
      split <;> omega

theorem decode_encode (l : List UInt8) : decode (encode l) = some l :=
  (decode_eq_some_iff _ _).2 ⟨0, by simp⟩

theorem encode_inj {l l' : List UInt8} (h : encode l = encode l') : l = l' := by
  have := decode_encode l
  rw [h, decode_encode] at this
  exact (Option.some.inj this).symm

/-- The first `4 k` symbols encode the first `3 k` bytes. -/
theorem take_encode (k : ℕ) (l : List UInt8) (h : 3 * k ≤ l.length) : (encode l).take (4 * k) = encode (l.take (3 * k)) := by
  induction k generalizing l with
  | zero => simp [encode]
  | succ k ih =>
    match l, h with
    | a :: b :: c :: l, h =>
      have e1 : 4 * (k + 1) = 4 * k + 1 + 1 + 1 + 1 := by omega
      have e2 : 3 * (k + 1) = 3 * k + 1 + 1 + 1 := by omega
      rw [e1, e2]
      simp only [encode, List.take_succ_cons]
      rw [ih l (by simp at h; omega)]
    | [], h => simp at h
    | [a], h => simp at h; omega
    | [a, b], h => simp at h; omega

end Verif.Base64
