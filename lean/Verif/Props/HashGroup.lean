import Verif.Lemmas.ArkHash

/-!
# `hash_to_group` at BLS12-381 (C102)

The curves have exactly `h r` points, so that multiplying with the cofactor `h` leads into the subgroup of order `r`; every point is
read from equally many blocks of random bytes, so that the result is uniform in the subgroup without zero.
-/

open Finset

namespace Verif

open WeierstrassCurve

noncomputable instance : DecidableEq blsE1.Point := Classical.decEq _
noncomputable instance : DecidableEq blsE2.Point := Classical.decEq _

/-- **C102** (orders). The curves have `h r` points, all of them killed by `r h`; cofactor and `r` are coprime. -/
theorem C102_order : Nat.card blsE1.Point = blsH1 * blsR ∧ Nat.card blsE2.Point = blsH2 * blsR ∧
    (∀ P : blsE1.Point, (blsR * blsH1) • P = 0) ∧ (∀ P : blsE2.Point, (blsR * blsH2) • P = 0) ∧
    blsH1.Coprime blsR ∧ blsH2.Coprime blsR := by
  refine ⟨card_e1, card_e2, fun P => ?_, fun P => ?_, by decide +kernel, by decide +kernel⟩
  · rw [mul_comm, ← card_e1]
    exact card_nsmul_eq_zero'
  · rw [mul_comm, ← card_e2]
    exact card_nsmul_eq_zero'

variable {ε : Type}

/-- **C102** (subgroup). What `hash_to_group` returns is a non-zero element of the group of order `r`. -/
theorem C102_subgroup (H : HashEnv blsR) (p m : List UInt8) :
    (∀ x, (hashToGroup H arkRaw1 p m : Res ε _) = .ok x → x ≠ 0 ∧ x ∈ torsion blsR blsE1.Point) ∧
    (∀ x, (hashToGroup H arkRaw2 p m : Res ε _) = .ok x → x ≠ 0 ∧ x ∈ torsion blsR blsE2.Point) :=
  ⟨fun x h => C51_subgroup H arkRaw1 p m x blsR C102_order.2.2.1 h,
    fun x h => C51_subgroup H arkRaw2 p m x blsR C102_order.2.2.2.1 h⟩

/-- A curve with an odd number of points has none with `y = 0`. -/
theorem no_two_torsion {F : Type} [Field F] [DecidableEq F] {a b : F} (hd : (64 : F) * a ^ 3 + 432 * b ^ 2 ≠ 0)
    (hodd : Nat.card (swCurve a b).Point % 2 = 1) (x y : F) (h : y ^ 2 = x ^ 3 + a * x + b) :
    (swCurve a b).Nonsingular x y ∧ y ≠ -y := by
  have hn := (sw_nonsingular hd).2 h
  refine ⟨hn, fun hyy => ?_⟩
  have hneg : Affine.Point.some x y hn + Affine.Point.some x y hn = 0 := by
    apply Affine.Point.add_of_Y_eq rfl
    simpa [Affine.negY, swCurve] using hyy
  have := dvd_card_of_order Nat.prime_two (Affine.Point.some_ne_zero hn) (by rw [two_nsmul]; exact hneg)
  omega

theorem pointCode_lt {F : Type} [Field F] [DecidableEq F] {lt : F → F → Prop} {a b : F} (P : (swCurve a b).Point) : (pointCode lt P).2 < 3 := by
  cases P with
  | zero => exact Nat.lt_of_sub_eq_succ rfl
  | some x y h =>
    simp only [pointCode]
    split <;> norm_num

theorem raw1_iff (s : Fin 48 → UInt8) (P : blsE1.Point) :
    arkRaw1.fromRandom (List.ofFn s) = some P ↔ rawFq (List.ofFn s) = some ((pointCode wireFq.lt P).1, (pointCode wireFq.lt P).2) := by
  have h := pointFromRandom_iff (raw := rawFq) wireFq_good.asymm wireFq_good.total
    (no_two_torsion b1_ok (by rw [card_e1]; decide +kernel)) (List.ofFn s) (fun x fl h => rawFq_lt (by rw [List.length_ofFn]) h) P
  rw [Prod.mk.eta]
  rw [← h]
  rw [arkRaw1]

theorem raw2_iff (s : Fin (48 + 48) → UInt8) (P : blsE2.Point) :
    arkRaw2.fromRandom (List.ofFn s) = some P ↔ rawFq2 (List.ofFn s) = some ((pointCode wireFq2.lt P).1, (pointCode wireFq2.lt P).2) := by
  have h := pointFromRandom_iff (raw := rawFq2) wireFq2_good.asymm wireFq2_good.total
    (no_two_torsion b2_ok (by rw [card_e2]; decide +kernel)) (List.ofFn s) (fun x fl h => by
      obtain ⟨⟨a, b⟩, e⟩ := (Fin.appendEquiv (α := UInt8) 48 48).surjective s
      rw [← e] at h
      exact rawFq_lt (by rw [List.length_ofFn]) ((rawFq2_append a b x fl).1 h).2) P
  rw [Prod.mk.eta]
  rw [← h]
  rw [arkRaw2]

theorem pointCode_zero {F : Type} [Field F] [DecidableEq F] (lt : F → F → Prop) {a b : F} :
    pointCode lt (0 : (swCurve a b).Point) = (0, 1) := rfl

open Classical in
theorem pointCode_some {F : Type} [Field F] [DecidableEq F] (lt : F → F → Prop) {a b x y : F} (h : (swCurve a b).Nonsingular x y) :
    pointCode lt (.some x y h : (swCurve a b).Point) = (x, if lt (-y) y then 2 else 0) := rfl

/-- **C102** (reading). A block of 48 bytes, little-endian, is read as the point with coordinate its lower 381 bits; the two topmost bits
are 1 for infinity, whose coordinate is zero, 2 for the larger and 0 for the smaller `y`; bit 381 is ignored.  In a block of 96 bytes the
first half is the coordinate's first part, its three topmost bits ignored, and the second half the second part with the flags; `y` is
compared by second parts, then by first parts. -/
theorem C102_read :
    (∀ s : Fin 48 → UInt8, arkRaw1.fromRandom (List.ofFn s) = some 0 ↔
      Codec.leVal (List.ofFn s) % 2 ^ 381 = 0 ∧ Codec.leVal (List.ofFn s) / 2 ^ 382 = 1) ∧
    (∀ (s : Fin 48 → UInt8) (x y : BlsFq) (h : blsE1.Nonsingular x y), arkRaw1.fromRandom (List.ofFn s) = some (.some x y h) ↔
      Codec.leVal (List.ofFn s) % 2 ^ 381 = x.val ∧ Codec.leVal (List.ofFn s) / 2 ^ 382 = if (-y).val < y.val then 2 else 0) ∧
    (∀ s t : Fin 48 → UInt8, arkRaw2.fromRandom (List.ofFn s ++ List.ofFn t) = some 0 ↔
      Codec.leVal (List.ofFn s) % 2 ^ 381 = 0 ∧ Codec.leVal (List.ofFn t) % 2 ^ 381 = 0 ∧ Codec.leVal (List.ofFn t) / 2 ^ 382 = 1) ∧
    (∀ (s t : Fin 48 → UInt8) (x y : BlsFq2) (h : blsE2.Nonsingular x y),
      arkRaw2.fromRandom (List.ofFn s ++ List.ofFn t) = some (.some x y h) ↔
      Codec.leVal (List.ofFn s) % 2 ^ 381 = x.re.val ∧ Codec.leVal (List.ofFn t) % 2 ^ 381 = x.im.val ∧
      Codec.leVal (List.ofFn t) / 2 ^ 382 =
        if (-y).im.val < y.im.val ∨ (-y).im = y.im ∧ (-y).re.val < y.re.val then 2 else 0) := by
  refine ⟨fun s => ?_, fun s x y h => ?_, fun s t => ?_, fun s t x y h => ?_⟩
  · rw [raw1_iff, pointCode_zero, rawFq_iff, ZMod.val_zero]
    exact ⟨fun h => ⟨h.2.2, h.2.1⟩, fun h => ⟨by decide, h.2, h.1⟩⟩
  · classical
    have hlt : wireFq.lt (-y) y ↔ (-y).val < y.val := by rw [wireFq]
    rw [raw1_iff, pointCode_some, rawFq_iff, if_congr hlt rfl rfl]
    exact ⟨fun h => ⟨h.2.2, h.2.1⟩, fun h => ⟨by dsimp only; split <;> decide, h.2, h.1⟩⟩
  · rw [← List.ofFn_fin_append, raw2_iff, pointCode_zero, rawFq2_append, rawFq_iff, rawFq0_iff, QuadraticAlgebra.re_zero,
      QuadraticAlgebra.im_zero, ZMod.val_zero]
    exact ⟨fun h => ⟨h.1, h.2.2.2, h.2.2.1⟩, fun h => ⟨h.1, by decide, h.2.2, h.2.1⟩⟩
  · classical
    have hlt : wireFq2.lt (-y) y ↔ (-y).im.val < y.im.val ∨ (-y).im = y.im ∧ (-y).re.val < y.re.val := by rw [wireFq2]
    rw [← List.ofFn_fin_append, raw2_iff, pointCode_some, rawFq2_append, rawFq_iff, rawFq0_iff, if_congr hlt rfl rfl]
    exact ⟨fun h => ⟨h.1, h.2.2.2, h.2.2.1⟩, fun h => ⟨h.1, by dsimp only; split <;> decide, h.2.2, h.2.1⟩⟩

open Classical in
/-- **C102** (points). Every point of the first curve, infinity included, is read from exactly 2 of the blocks of 48 bytes, every
point of the second from exactly 16 of the blocks of 96 bytes. -/
theorem C102_points :
    (∀ P, (univ.filter fun s : Fin 48 → UInt8 => arkRaw1.fromRandom (List.ofFn s) = some P).card = 2) ∧
    (∀ P, (univ.filter fun s : Fin 96 → UInt8 => arkRaw2.fromRandom (List.ofFn s) = some P).card = 16) := by
  constructor
  · intro P
    refine Eq.trans (congrArg card (filter_congr fun s _ => raw1_iff s P)) ?_
    exact card_rawFq _ _ (pointCode_lt P)
  · intro P
    refine Eq.trans (congrArg card (filter_congr fun s _ => raw2_iff s P)) ?_
    exact card_rawFq2 _ _ (pointCode_lt P)

section General

variable {r : ℕ} [Fact r.Prime] {E : Type} [AddCommGroup E] [DecidableEq E] [Finite E]

omit [DecidableEq E] in
/-- Multiplication with the cofactor maps the same number of points, the cofactor, to every point of the subgroup. -/
theorem card_cofactor_fibre {h q : ℕ} (hq : q.Prime) (hcard : Nat.card E = h * q) (htor : Nat.card (torsion q E) = q)
    (hco : h.Coprime q) {x : E} (hx : q • x = 0) : Nat.card {P : E // h • P = x} = h := by
  classical
  have := Fintype.ofFinite E
  have hsurj : ∀ y : E, q • y = 0 → y ∈ Set.range (nsmulAddMonoidHom (α := E) h) := by
    intro y hy
    obtain ⟨m, hm⟩ : ∃ m, h * m ≡ 1 [MOD q] := by
      obtain ⟨m, -, hm⟩ := Nat.exists_mul_mod_eq_one_of_coprime hco hq.one_lt
      exact ⟨m, by rw [Nat.ModEq, hm, Nat.mod_eq_of_lt hq.one_lt]⟩
    refine ⟨m • y, ?_⟩
    change h • m • y = y
    rw [← mul_smul]
    have h1 : (h * m) • y = ((h * m) % q) • y := by
      conv_lhs => rw [← Nat.div_add_mod (h * m) q, add_smul, mul_comm, mul_smul, hy, smul_zero, zero_add]
    rw [h1, show h * m % q = 1 % q from hm, Nat.mod_eq_of_lt hq.one_lt, one_smul]
  have hfib : ∀ y : E, q • y = 0 → (univ.filter fun P : E => h • P = y).card = (univ.filter fun P : E => h • P = x).card :=
    fun y hy => AddMonoidHom.card_fiber_eq_of_mem_range (nsmulAddMonoidHom (α := E) h) (hsurj y hy) (hsurj x hx)
  have hsum := card_eq_sum_card_fiberwise (s := (univ : Finset E)) (t := univ.filter fun y : E => q • y = 0) (f := fun P => h • P)
    (fun P _ => by
      simp only [coe_filter, mem_univ, true_and, Set.mem_ofPred_eq]
      rw [← mul_smul, mul_comm, ← hcard]
      exact card_nsmul_eq_zero')
  rw [sum_congr rfl (fun y hy => hfib y (by simpa using hy)), sum_const, smul_eq_mul, card_univ, ← Nat.card_eq_fintype_card, hcard] at hsum
  have ht : (univ.filter fun y : E => q • y = 0).card = q := by
    conv_rhs => rw [← htor, Nat.card_eq_fintype_card, Fintype.card_subtype]
    rfl
  rw [ht, mul_comm] at hsum
  rw [Nat.card_eq_fintype_card, Fintype.card_subtype]
  exact (Nat.eq_of_mul_eq_mul_left hq.pos hsum).symm

open Classical in
/-- The number of blocks that lead to a given point. -/
theorem card_blocks (C : RawCurve E) {q μ : ℕ} (hq : q.Prime) (hcard : Nat.card E = C.cofactor * q) (htor : Nat.card (torsion q E) = q)
    (hco : C.cofactor.Coprime q)
    (hμ : ∀ P, (univ.filter fun s : Fin C.size → UInt8 => C.fromRandom (List.ofFn s) = some P).card = μ) (x : E) :
    (univ.filter fun s : Fin C.size → UInt8 => ∃ P, C.fromRandom (List.ofFn s) = some P ∧ C.cofactor • P ≠ 0 ∧
        x = C.cofactor • P).card = if x ≠ 0 ∧ q • x = 0 then C.cofactor * μ else 0 := by
  have := Fintype.ofFinite E
  by_cases hx : x ≠ 0 ∧ q • x = 0
  · rw [if_pos hx]
    have h : (univ.filter fun s : Fin C.size → UInt8 => ∃ P, C.fromRandom (List.ofFn s) = some P ∧ C.cofactor • P ≠ 0 ∧
        x = C.cofactor • P) = (univ.filter fun P : E => C.cofactor • P = x).biUnion fun P =>
          univ.filter fun s : Fin C.size → UInt8 => C.fromRandom (List.ofFn s) = some P := by
      ext s
      simp only [mem_filter, mem_univ, true_and, mem_biUnion]
      constructor
      · rintro ⟨P, h1, -, h3⟩
        exact ⟨P, h3.symm, h1⟩
      · rintro ⟨P, h1, h2⟩
        exact ⟨P, h2, by rw [h1]; exact hx.1, h1.symm⟩
    rw [h, card_biUnion]
    · rw [sum_congr rfl (fun P _ => hμ P), sum_const, smul_eq_mul]
      have := card_cofactor_fibre hq hcard htor hco hx.2
      rw [Nat.card_eq_fintype_card, Fintype.card_subtype] at this
      rw [this]
    · intro P _ Q _ hPQ
      rw [Function.onFun, disjoint_left]
      intro s h1 h2
      simp only [mem_filter, mem_univ, true_and] at h1 h2
      rw [h1] at h2
      exact hPQ (Option.some.inj h2)
  · rw [if_neg hx, card_eq_zero, filter_eq_empty_iff]
    rintro s - ⟨P, -, h1, rfl⟩
    refine hx ⟨h1, ?_⟩
    rw [← mul_smul, mul_comm, ← hcard]
    exact card_nsmul_eq_zero'

omit [Fact r.Prime] in
open Classical in
/-- **C102** (`hash_to_group` in general). Let the curve have `h q` points, `q` of them in the subgroup, and let every point be read
from `μ` blocks. Among all contents of the first `k` blocks of the generator's output every non-zero point of the subgroup is the
result equally often; the only others are the contents without an acceptable block. -/
theorem C102_uniform (C : RawCurve E) {q μ : ℕ} (hq : q.Prime) (hcard : Nat.card E = C.cofactor * q)
    (htor : Nat.card (torsion q E) = q) (hco : C.cofactor.Coprime q)
    (hμ : ∀ P, (univ.filter fun s : Fin C.size → UInt8 => C.fromRandom (List.ofFn s) = some P).card = μ)
    (k : ℕ) (p msg : List UInt8) (hp : p.length ≤ 8) (env : (Fin k → Fin C.size → UInt8) → HashEnv r)
    (hs : ∀ b, Spec.StartsWith ((env b).stream (padPersona p) msg) b) (x : E) (hx : x ≠ 0) (hqx : q • x = 0) :
    (q - 1) * (univ.filter fun b : Fin k → Fin C.size → UInt8 => (∃ j, Spec.Acceptable C (List.ofFn (b j))) ∧
        (hashToGroup (env b) C p msg : Res ε _) = .ok x).card + (256 ^ C.size - (q - 1) * (C.cofactor * μ)) ^ k =
      (256 ^ C.size) ^ k := by
  have := Fintype.ofFinite E
  have hN : Fintype.card (Fin C.size → UInt8) = 256 ^ C.size := by
    rw [Fintype.card_fun, Fintype.card_fin, card_uint8]
  let D : List UInt8 → Option E := fun b =>
    match C.fromRandom b with
      | some p => if C.cofactor • p = 0 then none else some (C.cofactor • p)
      | none => none
  have hD : ∀ b x, D b = some x ↔ ∃ P, C.fromRandom b = some P ∧ C.cofactor • P ≠ 0 ∧ x = C.cofactor • P :=
    fun b x => groupAttempt_some C b x
  have hD0 : ∀ b, D b ≠ none ↔ Spec.Acceptable C b := fun b => by
    rw [ne_eq, not_iff_comm]
    exact (groupAttempt_none C b).symm
  have hcount : ∀ y, (univ.filter fun b : Fin k → Fin C.size → UInt8 =>
        (∃ j, Spec.Acceptable C (List.ofFn (b j))) ∧ (hashToGroup (env b) C p msg : Res ε _) = .ok y) =
      univ.filter fun b : Fin k → Fin C.size → UInt8 => Spec.Yields (fun s => D (List.ofFn s)) b y := by
    intro y
    ext b
    simp only [mem_filter, mem_univ, true_and, ← hD0]
    have hf : (hashToGroup (env b) C p msg : Res ε _) =
        firstSome fun j => D (block ((env b).stream (padPersona p) msg) C.size j) := by
      unfold hashToGroup
      rw [if_neg (by omega)]
      rfl
    rw [hf]
    constructor
    · rintro ⟨h1, h2⟩
      exact (firstSome_yields (hs b) h1 y).1 h2
    · intro h
      have h1 : ∃ j, D (List.ofFn (b j)) ≠ none := by
        obtain ⟨j, hj, -⟩ := h
        exact ⟨j, by simp only at hj; rw [hj]; simp⟩
      exact ⟨h1, (firstSome_yields (hs b) h1 y).2 h⟩
  have hb : ∀ y, (univ.filter fun s : Fin C.size → UInt8 => D (List.ofFn s) = some y).card =
      if y ≠ 0 ∧ q • y = 0 then C.cofactor * μ else 0 := fun y => by
    simp only [hD]
    exact card_blocks C hq hcard htor hco hμ y
  have hset : (univ.filter fun y : E => y ≠ 0 ∧ q • y = 0).card = q - 1 := by
    have ht : (univ.filter fun y : E => q • y = 0).card = q := by
      conv_rhs => rw [← htor, Nat.card_eq_fintype_card, Fintype.card_subtype]
      exact congrArg card (filter_congr fun y _ => Iff.rfl)
    have he : (univ.filter fun y : E => y ≠ 0 ∧ q • y = 0) = (univ.filter fun y : E => q • y = 0).erase 0 := by
      ext y
      simp
    rw [he, card_erase_of_mem (by simp), ht]
  -- how often each point is the outcome of `j` blocks
  have hall : ∀ (j : ℕ) (y : E), (univ.filter fun b : Fin j → Fin C.size → UInt8 => Spec.Yields (fun s => D (List.ofFn s)) b y).card =
      if y ≠ 0 ∧ q • y = 0 then (univ.filter fun b : Fin j → Fin C.size → UInt8 => Spec.Yields (fun s => D (List.ofFn s)) b x).card
      else 0 := by
    intro j y
    by_cases hy : y ≠ 0 ∧ q • y = 0
    · rw [if_pos hy, card_yields, card_yields, hb y, hb x, if_pos hy, if_pos ⟨hx, hqx⟩]
    · rw [if_neg hy, card_yields, hb y, if_neg hy]
      refine sum_eq_zero fun i _ => prod_eq_zero (mem_univ i) ?_
      simp
  have hsum : ∀ j : ℕ, ∑ y, (univ.filter fun b : Fin j → Fin C.size → UInt8 => Spec.Yields (fun s => D (List.ofFn s)) b y).card =
      (q - 1) * (univ.filter fun b : Fin j → Fin C.size → UInt8 => Spec.Yields (fun s => D (List.ofFn s)) b x).card := by
    intro j
    rw [sum_congr rfl fun y _ => hall j y, ← sum_filter, sum_const, hset, smul_eq_mul]
  have hz : (univ.filter fun s : Fin C.size → UInt8 => D (List.ofFn s) = none).card = 256 ^ C.size - (q - 1) * (C.cofactor * μ) := by
    have h1 := card_yields_total (k := 1) fun s : Fin C.size → UInt8 => D (List.ofFn s)
    rw [hsum 1, card_yields] at h1
    simp only [pow_one, hN] at h1
    have h2 : (univ.filter fun s : Fin C.size → UInt8 => D (List.ofFn s) = some x).card = C.cofactor * μ := by
      rw [hb x, if_pos ⟨hx, hqx⟩]
    simp [h2] at h1
    omega
  have htot := card_yields_total (k := k) fun s : Fin C.size → UInt8 => D (List.ofFn s)
  rw [hsum k, hz, hN] at htot
  rw [hcount, htot]

end General

open Classical in
/-- **C102** (`hash_to_group` at BLS12-381). Among all contents of the first `k` blocks of the generator's output, every non-zero element
of the group is the result equally often; the contents without a result have a share below `(9/10)^k` in both groups. -/
theorem C102 (k : ℕ) (p msg : List UInt8) (hp : p.length ≤ 8) :
    (∀ (env : (Fin k → Fin 48 → UInt8) → HashEnv blsR), (∀ b, Spec.StartsWith ((env b).stream (padPersona p) msg) b) →
      ∀ x : blsE1.Point, x ≠ 0 → x ∈ torsion blsR blsE1.Point →
      (blsR - 1) * (univ.filter fun b : Fin k → Fin 48 → UInt8 => (∃ j, Spec.Acceptable arkRaw1 (List.ofFn (b j))) ∧
          (hashToGroup (env b) arkRaw1 p msg : Res ε _) = .ok x).card + (256 ^ 48 - (blsR - 1) * (blsH1 * 2)) ^ k = (256 ^ 48) ^ k) ∧
    (∀ (env : (Fin k → Fin 96 → UInt8) → HashEnv blsR), (∀ b, Spec.StartsWith ((env b).stream (padPersona p) msg) b) →
      ∀ x : blsE2.Point, x ≠ 0 → x ∈ torsion blsR blsE2.Point →
      (blsR - 1) * (univ.filter fun b : Fin k → Fin 96 → UInt8 => (∃ j, Spec.Acceptable arkRaw2 (List.ofFn (b j))) ∧
          (hashToGroup (env b) arkRaw2 p msg : Res ε _) = .ok x).card + (256 ^ 96 - (blsR - 1) * (blsH2 * 16)) ^ k = (256 ^ 96) ^ k) ∧
    10 * (256 ^ 48 - (blsR - 1) * (blsH1 * 2)) < 9 * 256 ^ 48 ∧
    10 * (256 ^ 96 - (blsR - 1) * (blsH2 * 16)) < 9 * 256 ^ 96 := by
  have := finite_e1
  have := finite_e2
  obtain ⟨-, hr, -, -, -, -, c1, c2⟩ := C96_groups
  refine ⟨fun env hs x hx hq => ?_, fun env hs x hx hq => ?_, by decide +kernel, by decide +kernel⟩
  · exact C102_uniform arkRaw1 hr card_e1 c1 C102_order.2.2.2.2.1 C102_points.1 k p msg hp env hs x hx hq
  · exact C102_uniform arkRaw2 hr card_e2 c2 C102_order.2.2.2.2.2 C102_points.2 k p msg hp env hs x hx hq

/-! ### examples -/

theorem exists_of_card {α : Type} [Fintype α] (p : α → Prop) [DecidablePred p] (k : ℕ) (h : (univ.filter p).card = k + 1) : ∃ s, p s := by
  obtain ⟨s, hs⟩ := card_pos.1 (show 0 < _ by rw [h]; exact Nat.succ_pos _)
  exact ⟨s, (mem_filter.1 hs).2⟩

/-- A generator that repeats the 48 bytes of the `x` coordinate of the generator of the first group. -/
def Toy.genHash : HashEnv blsR := ⟨fun _ _ i => (Codec.leBytes 48 blsG1x).getD (i % 48) 0, 32, arkFromRandom⟩

/-- Non-vacuity of C102: this stream is accepted at once, with the cofactor multiple of the generator of the group as result. -/
example : (hashToGroup Toy.genHash arkRaw1 [1, 2] [3] : Res NIZKError _) = .ok (blsH1 • blsG1.1) ∧ blsH1 • blsG1.1 ≠ 0 := by
  have hy : blsG1y < blsP := by decide +kernel
  have hne : blsH1 • blsG1.1 ≠ 0 := by
    intro h
    have h1 : blsH1.gcd blsR • blsG1.1 = 0 := by
      rw [← addOrderOf_dvd_iff_nsmul_eq_zero] at h ⊢
      exact Nat.dvd_gcd h (addOrderOf_dvd_iff_nsmul_eq_zero.2 blsG1.2)
    rw [C102_order.2.2.2.2.1, one_smul] at h1
    exact blsG1_ne_zero (Subtype.ext h1)
  have hlt : ¬ wireFq.lt (-((blsG1y : ℕ) : BlsFq)) ((blsG1y : ℕ) : BlsFq) := by
    have : (-((blsG1y : ℕ) : BlsFq)) = ((blsP - blsG1y : ℕ) : BlsFq) := by
      rw [Nat.cast_sub hy.le, ZMod.natCast_self, zero_sub]
    simp only [wireFq]
    rw [this, ZMod.val_natCast_of_lt hy, ZMod.val_natCast_of_lt (Nat.sub_lt (by decide) (by decide))]
    decide +kernel
  have hread : arkRaw1.fromRandom (block (Toy.genHash.stream (padPersona [1, 2]) [3]) 48 0) = some blsG1.1 := by
    have hb : block (Toy.genHash.stream (padPersona [1, 2]) [3]) 48 0 =
        List.ofFn fun i : Fin 48 => (Codec.leBytes 48 blsG1x).getD i 0 := by decide +kernel
    have hv : (List.ofFn fun i : Fin 48 => (Codec.leBytes 48 blsG1x).getD i 0) = Codec.leBytes 48 blsG1x := by decide +kernel
    rw [hb, raw1_iff, rawFq_iff, hv, Codec.leVal_leBytes _ _ (by decide +kernel)]
    have hc : pointCode wireFq.lt blsG1.1 = (((blsG1x : ℕ) : BlsFq), 0) := by
      simp only [blsG1, pointCode, if_neg hlt]
    rw [hc, ZMod.val_natCast_of_lt (by decide +kernel)]
    exact ⟨by norm_num, by decide +kernel, by decide +kernel⟩
  exact ⟨((hashToGroup_blocks _ _ _ _).2.2.1 (by decide) _).2 ⟨0, ⟨⟨_, hread, hne⟩, fun j hj => absurd hj (Nat.not_lt_zero j)⟩, _, hread, rfl⟩, hne⟩

/-- The flag for infinity counts in the second half of a block of 96 bytes only. -/
example : arkRaw2.fromRandom (List.replicate 95 0 ++ [64]) = some 0 ∧
    arkRaw2.fromRandom (List.replicate 47 0 ++ 64 :: List.replicate 48 0) ≠ some 0 := by
  have e1 : List.replicate 95 0 ++ [(64 : UInt8)] = List.ofFn (fun _ : Fin 48 => 0) ++ List.ofFn (fun i : Fin 48 => if i = 47 then 64 else 0) := by
    decide +kernel
  have e2 : List.replicate 47 0 ++ (64 : UInt8) :: List.replicate 48 0 =
      List.ofFn (fun i : Fin 48 => if i = 47 then 64 else 0) ++ List.ofFn (fun _ : Fin 48 => 0) := by decide +kernel
  rw [e1, e2]
  refine ⟨(C102_read.2.2.1 _ _).2 ⟨by decide +kernel, by decide +kernel, by decide +kernel⟩, fun h => ?_⟩
  exact absurd ((C102_read.2.2.1 _ _).1 h).2.2 (by decide +kernel)

/-- The cofactor is needed: the point `(0, 2)` is read from some block, has order three, and is refused because
its cofactor multiple is zero. -/
example : ∃ P : blsE1.Point, P ≠ 0 ∧ P ∉ torsion blsR blsE1.Point ∧ arkRaw1.cofactor • P = 0 ∧
    ∃ s : Fin 48 → UInt8, arkRaw1.fromRandom (List.ofFn s) = some P := by
  have hon : onCurve blsP 0 4 0 2 = true := by decide +kernel
  have hP := on_e1 hon
  have h3 : 3 • Affine.Point.some _ _ hP = 0 := by
    have key : ∀ (a : BlsFq) (_ : a = ((0 : ℕ) : BlsFq)) (hq : (swCurve a 4).Nonsingular ((0 : ℕ) : BlsFq) ((2 : ℕ) : BlsFq)),
        3 • Affine.Point.some _ _ hq = 0 := by
      rintro a rfl hq
      exact jOrder_sound (opsN_sound (by decide) (ZMod.natCast_self blsP)) (a := 0) (one := 1) (f := 5) (by simp) hq (by decide)
        (by decide +kernel)
    exact key 0 (by simp) _
  refine ⟨.some _ _ hP, Affine.Point.some_ne_zero hP, fun h => ?_, ?_, ?_⟩
  · have h1 : (Nat.gcd 3 blsR) • Affine.Point.some _ _ hP = 0 := by
      rw [mem_torsion] at h
      rw [← addOrderOf_dvd_iff_nsmul_eq_zero] at h h3 ⊢
      exact Nat.dvd_gcd h3 h
    rw [show Nat.gcd 3 blsR = 1 by decide +kernel, one_smul] at h1
    exact Affine.Point.some_ne_zero hP h1
  · rw [show arkRaw1.cofactor = (blsH1 / 3) * 3 by decide +kernel, mul_smul, h3]
    exact nsmul_zero _
  · classical
    exact exists_of_card _ 1 (C102_points.1 _)

end Verif
