import Verif.Lemmas.Ark
import Verif.Model.ArkHash
import Verif.Props.Bls

/-!
# How many blocks of random bytes give a point
-/

open Finset

namespace Verif

open WeierstrassCurve

section
variable {F : Type} [Field F] [DecidableEq F]

open Classical in
/-- Coordinate and flags of a point. -/
noncomputable def pointCode (lt : F → F → Prop) {a b : F} : (swCurve a b).Point → F × ℕ
  | .zero => (0, 1)
  | .some x y _ => (x, if lt (-y) y then 2 else 0)

omit [DecidableEq F] in
theorem pick_iff {lt : F → F → Prop} (hasymm : ∀ y z : F, lt y z → ¬ lt z y) (htotal : ∀ y : F, y ≠ -y → lt y (-y) ∨ lt (-y) y)
    {y0 : F} (h0 : y0 ≠ -y0) (p : Prop) (d : Decidable (Xor (lt y0 (-y0)) p)) :
    lt (-(if Xor (lt y0 (-y0)) p then y0 else -y0)) (if Xor (lt y0 (-y0)) p then y0 else -y0) ↔ p := by
  by_cases hp : p
  · by_cases hl : lt y0 (-y0)
    · rw [if_neg (by simp [Xor, hp, hl]), neg_neg]
      exact ⟨fun _ => hp, fun _ => hl⟩
    · rw [if_pos (.inr ⟨hp, hl⟩)]
      exact ⟨fun _ => hp, fun _ => (htotal _ h0).resolve_left hl⟩
  · by_cases hl : lt y0 (-y0)
    · rw [if_pos (.inl ⟨hl, hp⟩)]
      exact ⟨fun h => absurd h (hasymm _ _ hl), fun h => absurd h hp⟩
    · rw [if_neg (by simp [Xor, hp, hl]), neg_neg]
      exact ⟨fun h => absurd h hl, fun h => absurd h hp⟩

/-- A point is read exactly from the blocks that have its coordinate and its flags, on a curve without points of order two. -/
theorem pointFromRandom_iff {raw : List UInt8 → Option (F × ℕ)} {lt : F → F → Prop} {a b : F}
    (hasymm : ∀ y z : F, lt y z → ¬ lt z y) (htotal : ∀ y : F, y ≠ -y → lt y (-y) ∨ lt (-y) y)
    (hns : ∀ x y, y ^ 2 = x ^ 3 + a * x + b → (swCurve a b).Nonsingular x y ∧ y ≠ -y)
    (l : List UInt8) (hraw : ∀ x fl, raw l = some (x, fl) → fl < 3) (P : (swCurve a b).Point) :
    pointFromRandom raw lt a b l = some P ↔ raw l = some (pointCode lt P) := by
  classical
  unfold pointFromRandom
  cases hr : raw l with
  | none => simp
  | some v =>
    obtain ⟨x, fl⟩ := v
    have hfl := hraw _ _ hr
    simp only
    by_cases h1 : x = 0 ∧ fl = 1
    · rw [if_pos h1]
      obtain ⟨rfl, rfl⟩ := h1
      cases P with
      | zero => exact ⟨fun _ => rfl, fun _ => rfl⟩
      | some u v h =>
        constructor
        · intro e
          exact absurd (Option.some.inj e).symm (Affine.Point.some_ne_zero h)
        · intro e
          have := (Prod.mk.inj (Option.some.inj e)).2
          split at this <;> omega
    rw [if_neg h1]
    by_cases h2 : fl = 1
    · rw [if_pos h2]
      refine ⟨fun e => (by cases e), fun e => ?_⟩
      subst h2
      cases P with
      | zero => exact absurd ⟨(Prod.mk.inj (Option.some.inj e)).1, rfl⟩ h1
      | some u v h =>
        have := (Prod.mk.inj (Option.some.inj e)).2
        split at this <;> omega
    rw [if_neg h2]
    by_cases hs : ∃ y, y ^ 2 = x ^ 3 + a * x + b
    · rw [dif_pos hs]
      have h0 := (hns _ _ hs.choose_spec).2
      have hp := pick_iff hasymm htotal h0 (fl = 2) inferInstance
      have hsq : (if Xor (lt hs.choose (-hs.choose)) (fl = 2) then hs.choose else -hs.choose) ^ 2 = x ^ 3 + a * x + b := by
        split
        · exact hs.choose_spec
        · rw [neg_sq]; exact hs.choose_spec
      have key : ∀ z (_ : lt (-z) z ↔ fl = 2) (_ : z ^ 2 = x ^ 3 + a * x + b),
          ((if h : (swCurve a b).Nonsingular x z then some (.some x z h) else none) = some P ↔
            some (x, fl) = some (pointCode lt P)) := by
        intro z hz hz2
        rw [dif_pos (hns _ _ hz2).1]
        cases P with
        | zero =>
          constructor
          · intro e
            exact absurd (Option.some.inj e) (Affine.Point.some_ne_zero _)
          · intro e
            exact absurd (Prod.mk.inj (Option.some.inj e)).2 h2
        | some u v h =>
          simp only [Option.some.injEq, Affine.Point.some.injEq, pointCode, Prod.mk.injEq]
          constructor
          · rintro ⟨rfl, rfl⟩
            refine ⟨rfl, ?_⟩
            by_cases hl : lt (-z) z
            · rw [if_pos hl]; exact hz.1 hl
            · rw [if_neg hl]
              have : fl ≠ 2 := fun e => hl (hz.2 e)
              omega
          · rintro ⟨rfl, e⟩
            refine ⟨rfl, ?_⟩
            have hv := sw_equation.1 h.1
            have hne := (hns _ _ hv).2
            rcases sq_eq_sq_iff_eq_or_eq_neg.1 (hz2.trans hv.symm) with h3 | h3
            · exact h3
            · exfalso
              rw [h3, neg_neg] at hz
              by_cases hl : lt (-v) v
              · rw [if_pos hl] at e
                exact hasymm _ _ hl (hz.2 e)
              · rw [if_neg hl] at e
                have := hz.1 ((htotal _ hne).resolve_right hl)
                omega
      exact key _ hp hsq
    · rw [dif_neg hs]
      refine ⟨fun e => (by cases e), fun e => ?_⟩
      cases P with
      | zero => exact absurd (Prod.mk.inj (Option.some.inj e)).2 h2
      | some u v h =>
        obtain ⟨rfl, -⟩ := Prod.mk.inj (Option.some.inj e)
        exact absurd ⟨v, sw_equation.1 h.1⟩ hs

end

/-! ### the blocks of the coordinates -/

theorem val_eq_iff {x : BlsFq} {n : ℕ} : (n < blsP ∧ (n : BlsFq) = x) ↔ n = x.val := by
  constructor
  · rintro ⟨h, rfl⟩
    rw [ZMod.val_natCast_of_lt h]
  · rintro rfl
    exact ⟨ZMod.val_lt x, ZMod.natCast_zmod_val x⟩

theorem rawFq0_iff (l : List UInt8) (x : BlsFq) : rawFq0 l = some x ↔ Codec.leVal l % 2 ^ 381 = x.val := by
  rw [← val_eq_iff]
  unfold rawFq0
  simp only
  by_cases h : Codec.leVal l % 2 ^ 381 < blsP
  · rw [if_pos h, Option.some.injEq]
    exact ⟨fun e => ⟨h, e⟩, fun e => e.2⟩
  · rw [if_neg h]
    exact ⟨fun e => (by cases e), fun e => absurd e.1 h⟩

theorem rawFq_iff (l : List UInt8) (x : BlsFq) (fl : ℕ) :
    rawFq l = some (x, fl) ↔ fl ≠ 3 ∧ Codec.leVal l / 2 ^ 382 = fl ∧ Codec.leVal l % 2 ^ 381 = x.val := by
  rw [← rawFq0_iff]
  unfold rawFq
  simp only
  generalize Codec.leVal l / 2 ^ 382 = q
  cases rawFq0 l with
  | none => simp
  | some y =>
    simp only
    by_cases h : q = 3
    · rw [if_pos h]
      refine ⟨fun e => (by cases e), ?_⟩
      rintro ⟨h1, rfl, -⟩
      exact absurd h h1
    · rw [if_neg h, Option.some.injEq, Option.some.injEq, Prod.mk.injEq]
      constructor
      · rintro ⟨rfl, rfl⟩
        exact ⟨h, rfl, rfl⟩
      · rintro ⟨-, rfl, rfl⟩
        exact ⟨rfl, rfl⟩

theorem card_bytes (n : ℕ) (p : ℕ → Prop) [DecidablePred p] :
    (univ.filter fun s : Fin n → UInt8 => p (Codec.leVal (List.ofFn s))).card = ((range (256 ^ n)).filter p).card := by
  let f : ℕ → Fin n → UInt8 := fun v j => (Codec.leBytes n v)[j]'(by rw [Codec.length_leBytes]; exact j.2)
  have hf : ∀ v, List.ofFn (f v) = Codec.leBytes n v := fun v => by
    apply List.ext_getElem
    · simp
    · intro i h1 h2
      simp [f]
  refine card_nbij' (fun s => Codec.leVal (List.ofFn s)) f ?_ ?_ ?_ ?_
  · intro s hs
    have hb := Codec.leVal_lt (List.ofFn s)
    rw [List.length_ofFn] at hb
    simp only [coe_filter, mem_univ, true_and, Set.mem_ofPred_eq, mem_range] at hs ⊢
    exact ⟨hb, hs⟩
  · intro v hv
    simp only [coe_filter, mem_univ, true_and, Set.mem_ofPred_eq, mem_range] at hv ⊢
    rw [hf, Codec.leVal_leBytes _ _ hv.1]
    exact hv.2
  · intro s _
    apply List.ofFn_injective
    rw [hf]
    have := Codec.leBytes_leVal (List.ofFn s)
    rwa [List.length_ofFn] at this
  · intro v hv
    simp only [coe_filter, Set.mem_ofPred_eq, mem_range] at hv
    simp only [hf]
    exact Codec.leVal_leBytes _ _ hv.1

/-- Two values below `8 M` have given residue modulo `M` and quotient by `2 M`. -/
theorem card_two (M x fl : ℕ) (hx : x < M) (hfl : fl < 4) :
    ((range (8 * M)).filter fun v => v / (2 * M) = fl ∧ v % M = x).card = 2 := by
  rw [card_eq_two]
  refine ⟨M * (2 * fl) + x, M * (2 * fl + 1) + x, fun h => ?_, ?_⟩
  · have := Nat.eq_of_mul_eq_mul_left (by omega) (Nat.add_right_cancel h)
    omega
  · ext v
    simp only [mem_filter, mem_range, mem_insert, mem_singleton]
    have hq : v / (2 * M) = v / M / 2 := by rw [mul_comm, Nat.div_div_eq_div_mul]
    have key : ∀ q, q < 8 → v = M * q + x → v < 8 * M ∧ v / M = q ∧ v % M = x := by
      rintro q hq8 rfl
      refine ⟨?_, ?_, ?_⟩
      · calc M * q + x < M * q + M := by omega
          _ = M * (q + 1) := by ring
          _ ≤ M * 8 := Nat.mul_le_mul_left _ hq8
          _ = 8 * M := by ring
      · rw [Nat.mul_add_div (by omega), Nat.div_eq_of_lt hx, add_zero]
      · rw [Nat.mul_add_mod, Nat.mod_eq_of_lt hx]
    constructor
    · rintro ⟨h1, h2, h3⟩
      rw [hq] at h2
      have h4 := Nat.div_add_mod v M
      rw [h3] at h4
      have : v / M = 2 * fl ∨ v / M = 2 * fl + 1 := by omega
      rcases this with e | e
      · left; rw [← e]; exact h4.symm
      · right; rw [← e]; exact h4.symm
    · rintro (h | h)
      · obtain ⟨h1, h2, h3⟩ := key _ (by omega) h
        exact ⟨h1, by rw [hq, h2]; omega, h3⟩
      · obtain ⟨h1, h2, h3⟩ := key _ (by omega) h
        exact ⟨h1, by rw [hq, h2]; omega, h3⟩

theorem blsP_lt_381 : blsP < 2 ^ 381 := by decide +kernel

theorem card_rawFq (x : BlsFq) (fl : ℕ) (hfl : fl < 3) :
    (univ.filter fun s : Fin 48 → UInt8 => rawFq (List.ofFn s) = some (x, fl)).card = 2 := by
  classical
  rw [← card_two (2 ^ 381) x.val fl ((ZMod.val_lt x).trans blsP_lt_381) (by omega), show 8 * 2 ^ 381 = 256 ^ 48 by decide +kernel,
    show 2 * 2 ^ 381 = 2 ^ 382 by decide +kernel, ← card_bytes]
  refine congrArg card (filter_congr fun s _ => ?_)
  rw [rawFq_iff]
  exact ⟨fun h => h.2, fun h => ⟨by omega, h⟩⟩

theorem card_rawFq0 (x : BlsFq) : (univ.filter fun s : Fin 48 → UInt8 => rawFq0 (List.ofFn s) = some x).card = 8 := by
  rw [← card_residue 48 (2 ^ 381) 8 x.val (by decide +kernel) ((ZMod.val_lt x).trans blsP_lt_381)]
  refine congrArg card (filter_congr fun s _ => ?_)
  rw [rawFq0_iff]

theorem rawFq2_append (a b : Fin 48 → UInt8) (x : BlsFq2) (fl : ℕ) :
    rawFq2 (List.ofFn (Fin.append a b)) = some (x, fl) ↔ rawFq0 (List.ofFn a) = some x.re ∧ rawFq (List.ofFn b) = some (x.im, fl) := by
  rw [List.ofFn_fin_append]
  have e1 : (List.ofFn a ++ List.ofFn b).length / 2 = (List.ofFn a).length := by simp
  unfold rawFq2
  rw [e1, List.take_left, List.drop_left]
  cases rawFq0 (List.ofFn a) with
  | none => simp
  | some c0 =>
    cases rawFq (List.ofFn b) with
    | none => simp
    | some c =>
      obtain ⟨c1, fl'⟩ := c
      simp only [Option.some.injEq, Prod.mk.injEq]
      constructor
      · rintro ⟨rfl, rfl⟩
        exact ⟨rfl, rfl, rfl⟩
      · rintro ⟨rfl, rfl, rfl⟩
        exact ⟨rfl, rfl⟩

theorem card_rawFq2 (x : BlsFq2) (fl : ℕ) (hfl : fl < 3) :
    (univ.filter fun s : Fin (48 + 48) → UInt8 => rawFq2 (List.ofFn s) = some (x, fl)).card = 16 := by
  have h : (univ.filter fun s : Fin (48 + 48) → UInt8 => rawFq2 (List.ofFn s) = some (x, fl)) =
      ((univ.filter fun s : Fin 48 → UInt8 => rawFq0 (List.ofFn s) = some x.re) ×ˢ
        (univ.filter fun s : Fin 48 → UInt8 => rawFq (List.ofFn s) = some (x.im, fl))).map (Fin.appendEquiv 48 48).toEmbedding := by
    ext s
    obtain ⟨⟨a, b⟩, rfl⟩ := (Fin.appendEquiv (α := UInt8) 48 48).surjective s
    rw [mem_map_equiv, Equiv.symm_apply_apply]
    simp only [mem_filter, mem_univ, true_and, mem_product]
    exact rawFq2_append a b x fl
  rw [h, card_map, card_product, card_rawFq0, card_rawFq _ _ hfl]

theorem rawFq_lt {s : List UInt8} {x : BlsFq} {fl : ℕ} (hs : s.length ≤ 48) (h : rawFq s = some (x, fl)) : fl < 3 := by
  obtain ⟨h1, h2, -⟩ := (rawFq_iff _ _ _).1 h
  have hv := (Codec.leVal_lt s).trans_le (Nat.pow_le_pow_right (by norm_num) hs)
  rw [show 256 ^ 48 = 2 ^ 382 * 4 by decide +kernel] at hv
  have : Codec.leVal s / 2 ^ 382 < 4 := Nat.div_lt_of_lt_mul hv
  omega

end Verif
