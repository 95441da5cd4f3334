import Verif.Model.EdScalar
import Verif.Lemmas.EdLimb

/-!
# Limbs of scalars: bounds and values
-/

set_option exponentiation.threshold 600

namespace Verif.EdProj

/-- The number that limbs stand for. -/
def Sc.val (a : Sc) : ℕ := a.a0 + 2 ^ 52 * a.a1 + 2 ^ 104 * a.a2 + 2 ^ 156 * a.a3 + 2 ^ 208 * a.a4

/-- All limbs have 52 bits. -/
def Sc.Ok (a : Sc) : Prop := a.a0 < 2 ^ 52 ∧ a.a1 < 2 ^ 52 ∧ a.a2 < 2 ^ 52 ∧ a.a3 < 2 ^ 52 ∧ a.a4 < 2 ^ 52

namespace Sc

open Fe (u64 u128 u64_eq u128_eq lor_eq)

theorem bind_u64 {α : Type} {n : ℕ} (h : n < 2 ^ 64) (f : ℕ → Option α) : (u64 n >>= f) = f n := by rw [u64_eq h]; rfl

theorem bind_u128 {α : Type} {n : ℕ} (h : n < 2 ^ 128) (f : ℕ → Option α) : (u128 n >>= f) = f n := by rw [u128_eq h]; rfl

theorem bind_eq {α β : Type} {x : Option α} {a : α} (h : x = some a) (f : α → Option β) : (x >>= f) = f a := by rw [h]; rfl

theorem L_val : L.val = edL := by decide +kernel

theorem L_ok : L.Ok := by unfold Ok; decide +kernel

theorem R_ok : R.Ok := by unfold Ok; decide +kernel

theorem RR_ok : RR.Ok := by unfold Ok; decide +kernel

theorem addCarry_spec {d c : Sc} (hd : d.Ok) (hc : c.Ok) : ∃ f, addCarry d c = some f ∧ f.Ok ∧ f.val = (d.val + c.val) % 2 ^ 260 := by
  obtain ⟨h0, h1, h2, h3, h4⟩ := hd
  obtain ⟨g0, g1, g2, g3, g4⟩ := hc
  unfold addCarry
  obtain ⟨k0, e0⟩ : ∃ k, k = 0 + d.a0 + c.a0 := ⟨_, rfl⟩
  rw [← e0, bind_u64 (by omega)]
  obtain ⟨k1, e1⟩ : ∃ k, k = k0 / 2 ^ 52 + d.a1 + c.a1 := ⟨_, rfl⟩
  rw [← e1, bind_u64 (by omega)]
  obtain ⟨k2, e2⟩ : ∃ k, k = k1 / 2 ^ 52 + d.a2 + c.a2 := ⟨_, rfl⟩
  rw [← e2, bind_u64 (by omega)]
  obtain ⟨k3, e3⟩ : ∃ k, k = k2 / 2 ^ 52 + d.a3 + c.a3 := ⟨_, rfl⟩
  rw [← e3, bind_u64 (by omega)]
  obtain ⟨k4, e4⟩ : ∃ k, k = k3 / 2 ^ 52 + d.a4 + c.a4 := ⟨_, rfl⟩
  rw [← e4, bind_u64 (by omega)]
  refine ⟨_, rfl, ⟨Nat.mod_lt _ (by norm_num), Nat.mod_lt _ (by norm_num), Nat.mod_lt _ (by norm_num), Nat.mod_lt _ (by norm_num),
    Nat.mod_lt _ (by norm_num)⟩, ?_⟩
  have h : d.val + c.val = (k0 % 2 ^ 52 + 2 ^ 52 * (k1 % 2 ^ 52) + 2 ^ 104 * (k2 % 2 ^ 52) + 2 ^ 156 * (k3 % 2 ^ 52) +
      2 ^ 208 * (k4 % 2 ^ 52)) + 2 ^ 260 * (k4 / 2 ^ 52) := by
    rw [val, val]; omega
  rw [h, Nat.add_mul_mod_self_left]
  dsimp only [val]
  exact (Nat.mod_eq_of_lt (by omega)).symm

/-- One step of the loop with borrows. -/
theorem borrow {a b : ℕ} (k : ℕ) (ha : a < 2 ^ 52) (hb : b < 2 ^ 52) (hk : k ≤ 1) :
    wsub a (b + k) / 2 ^ 63 ≤ 1 ∧ a + 2 ^ 52 * (wsub a (b + k) / 2 ^ 63) = b + k + wsub a (b + k) % 2 ^ 52 := by
  unfold wsub
  omega

theorem sub_spec {a b : Sc} (ha : a.Ok) (hb : b.Ok) (h : b.val ≤ a.val + edL) : ∃ f, sub a b = some f ∧ f.Ok ∧
    f.val = if b.val ≤ a.val then a.val - b.val else a.val + edL - b.val := by
  obtain ⟨h0, h1, h2, h3, h4⟩ := ha
  obtain ⟨g0, g1, g2, g3, g4⟩ := hb
  unfold sub
  rw [bind_u64 (by omega)]
  obtain ⟨b0, e0⟩ := borrow 0 h0 g0 (by omega)
  generalize wsub a.a0 (b.a0 + 0) = k0 at *
  rw [bind_u64 (by omega)]
  obtain ⟨b1, e1⟩ := borrow _ h1 g1 b0
  generalize wsub a.a1 (b.a1 + k0 / 2 ^ 63) = k1 at *
  rw [bind_u64 (by omega)]
  obtain ⟨b2, e2⟩ := borrow _ h2 g2 b1
  generalize wsub a.a2 (b.a2 + k1 / 2 ^ 63) = k2 at *
  rw [bind_u64 (by omega)]
  obtain ⟨b3, e3⟩ := borrow _ h3 g3 b2
  generalize wsub a.a3 (b.a3 + k2 / 2 ^ 63) = k3 at *
  rw [bind_u64 (by omega)]
  obtain ⟨b4, e4⟩ := borrow _ h4 g4 b3
  generalize wsub a.a4 (b.a4 + k3 / 2 ^ 63) = k4 at *
  dsimp only
  have hv : a.val + 2 ^ 260 * (k4 / 2 ^ 63) = b.val + Sc.val ⟨k0 % 2 ^ 52, k1 % 2 ^ 52, k2 % 2 ^ 52, k3 % 2 ^ 52, k4 % 2 ^ 52⟩ := by
    simp only [val]
    omega
  have hok : Ok ⟨k0 % 2 ^ 52, k1 % 2 ^ 52, k2 % 2 ^ 52, k3 % 2 ^ 52, k4 % 2 ^ 52⟩ := ⟨Nat.mod_lt _ (by norm_num),
    Nat.mod_lt _ (by norm_num), Nat.mod_lt _ (by norm_num), Nat.mod_lt _ (by norm_num), Nat.mod_lt _ (by norm_num)⟩
  have hlt : Sc.val ⟨k0 % 2 ^ 52, k1 % 2 ^ 52, k2 % 2 ^ 52, k3 % 2 ^ 52, k4 % 2 ^ 52⟩ < 2 ^ 260 := by
    simp only [val]
    omega
  have ha' : a.val < 2 ^ 260 := by
    simp only [val]
    omega
  have hb' : b.val < 2 ^ 260 := by
    simp only [val]
    omega
  have hL : edL < 2 ^ 253 := by decide +kernel
  generalize (⟨k0 % 2 ^ 52, k1 % 2 ^ 52, k2 % 2 ^ 52, k3 % 2 ^ 52, k4 % 2 ^ 52⟩ : Sc) = d at *
  generalize k4 / 2 ^ 63 = k at *
  clear e0 e1 e2 e3 e4 b0 b1 b2 b3 h0 h1 h2 h3 h4 g0 g1 g2 g3 g4
  obtain ⟨f, hf, hf', hw⟩ := addCarry_spec (c := if k = 1 then L else ⟨0, 0, 0, 0, 0⟩) hok (by
    split
    · exact L_ok
    · unfold Ok; decide +kernel)
  refine ⟨f, hf, hf', ?_⟩
  rw [hw]
  have : k = 0 ∨ k = 1 := by omega
  rcases this with rfl | rfl
  · rw [if_neg (by norm_num), show Sc.val ⟨0, 0, 0, 0, 0⟩ = 0 from rfl, add_zero, Nat.mod_eq_of_lt hlt]
    rw [if_pos (by omega)]
    omega
  · rw [if_pos rfl, L_val, if_neg (by omega)]
    generalize edL = l at *
    omega

theorem add_spec {a b : Sc} (ha : a.Ok) (hb : b.Ok) (h : a.val + b.val < 2 ^ 260) : ∃ f, add a b = some f ∧ f.Ok ∧
    f.val ≤ a.val + b.val ∧ f.val ≡ a.val + b.val [MOD edL] ∧ (a.val < edL → b.val < edL → f.val < edL) := by
  obtain ⟨s, hs, hs', hv⟩ := addCarry_spec ha hb
  rw [Nat.mod_eq_of_lt h] at hv
  obtain ⟨f, hf, hf', hw⟩ := sub_spec hs' L_ok (by rw [L_val]; omega)
  refine ⟨f, (bind_eq hs _).trans hf, hf', ?_⟩
  rw [L_val, hv] at hw
  generalize edL = l at *
  split at hw
  · refine ⟨by omega, ?_, by omega⟩
    rw [hw]
    exact ((Nat.modEq_iff_dvd' (by omega)).2 ⟨1, by omega⟩)
  · refine ⟨by omega, ?_, by omega⟩
    rw [hw, Nat.add_sub_cancel]

theorem dvd_of {f l : ℕ} (hfl : 2 ^ 52 ∣ 1 + f * l) (s : ℕ) : 2 ^ 52 ∣ s + s % 2 ^ 64 * f % 2 ^ 64 % 2 ^ 52 * l := by
  have h1 : s % 2 ^ 64 * f % 2 ^ 64 % 2 ^ 52 ≡ s * f [MOD 2 ^ 52] := by
    refine (Nat.mod_modEq _ _).trans ?_
    have h : s % 2 ^ 64 * f % 2 ^ 64 ≡ s * f [MOD 2 ^ 64] := (Nat.mod_modEq _ _).trans ((Nat.mod_modEq _ _).mul_right _)
    exact h.of_dvd (by norm_num)
  have h2 : s + s % 2 ^ 64 * f % 2 ^ 64 % 2 ^ 52 * l ≡ s * (1 + f * l) [MOD 2 ^ 52] := by
    rw [mul_add, mul_one, ← mul_assoc]
    exact (h1.mul_right _).add_left _
  exact Nat.modEq_zero_iff_dvd.1 (h2.trans (Nat.modEq_zero_iff_dvd.2 (hfl.mul_left _)))

theorem part1_dvd (s : ℕ) : 2 ^ 52 ∣ s + s % 2 ^ 64 * lFactor % 2 ^ 64 % 2 ^ 52 * L.a0 := dvd_of (by decide +kernel) s

theorem part1_spec {s : ℕ} (h : s < 2 ^ 127) : ∃ c p, part1 s = some (c, p) ∧ p < 2 ^ 52 ∧ s + p * L.a0 = 2 ^ 52 * c := by
  have hd := part1_dvd s
  have hp : s % 2 ^ 64 * lFactor % 2 ^ 64 % 2 ^ 52 < 2 ^ 52 := Nat.mod_lt _ (by norm_num)
  unfold part1
  rw [bind_u128 (by omega)]
  generalize s % 2 ^ 64 * lFactor % 2 ^ 64 % 2 ^ 52 = p at *
  generalize hl : L.a0 = l at *
  have : p * l < 2 ^ 104 := by
    calc p * l < 2 ^ 52 * 2 ^ 52 := Nat.mul_lt_mul'' hp (by rw [← hl]; decide +kernel)
      _ = 2 ^ 104 := by norm_num
  rw [bind_u128 (by omega)]
  exact ⟨_, _, rfl, hp, (Nat.mul_div_cancel' hd).symm⟩

theorem part2_spec {s : ℕ} (h : s < 2 ^ 127) : ∃ c p, part2 s = some (c, p) ∧ p < 2 ^ 52 ∧ s = 2 ^ 52 * c + p := by
  unfold part2
  rw [bind_u128 (by omega)]
  exact ⟨_, _, rfl, Nat.mod_lt _ (by norm_num), (Nat.div_add_mod _ _).symm⟩

theorem prod_lt {x y : ℕ} (hx : x < 2 ^ 52) (hy : y < 2 ^ 52) : x * y < 2 ^ 104 := by
  calc x * y < 2 ^ 52 * 2 ^ 52 := Nat.mul_lt_mul'' hx hy
    _ = 2 ^ 104 := by norm_num

theorem montMul_spec {a b : Sc} (ha : a.Ok) (hb : b.Ok) (h : a.val * b.val < 2 ^ 260 * edL) : ∃ f, montMul a b = some f ∧ f.Ok ∧
    f.val < edL ∧ f.val * 2 ^ 260 ≡ a.val * b.val [MOD edL] := by
  obtain ⟨h0, h1, h2, h3, h4⟩ := ha
  obtain ⟨g0, g1, g2, g3, g4⟩ := hb
  have p00 := prod_lt h0 g0
  have p01 := prod_lt h0 g1
  have p02 := prod_lt h0 g2
  have p03 := prod_lt h0 g3
  have p04 := prod_lt h0 g4
  have p10 := prod_lt h1 g0
  have p11 := prod_lt h1 g1
  have p12 := prod_lt h1 g2
  have p13 := prod_lt h1 g3
  have p14 := prod_lt h1 g4
  have p20 := prod_lt h2 g0
  have p21 := prod_lt h2 g1
  have p22 := prod_lt h2 g2
  have p23 := prod_lt h2 g3
  have p24 := prod_lt h2 g4
  have p30 := prod_lt h3 g0
  have p31 := prod_lt h3 g1
  have p32 := prod_lt h3 g2
  have p33 := prod_lt h3 g3
  have p34 := prod_lt h3 g4
  have p40 := prod_lt h4 g0
  have p41 := prod_lt h4 g1
  have p42 := prod_lt h4 g2
  have p43 := prod_lt h4 g3
  have p44 := prod_lt h4 g4
  have hT : a.val * b.val = a.a0 * b.a0 + 2 ^ 52 * (a.a0 * b.a1 + a.a1 * b.a0) + 2 ^ 104 * (a.a0 * b.a2 + a.a1 * b.a1 + a.a2 * b.a0) +
      2 ^ 156 * (a.a0 * b.a3 + a.a1 * b.a2 + a.a2 * b.a1 + a.a3 * b.a0) +
      2 ^ 208 * (a.a0 * b.a4 + a.a1 * b.a3 + a.a2 * b.a2 + a.a3 * b.a1 + a.a4 * b.a0) +
      2 ^ 260 * (a.a1 * b.a4 + a.a2 * b.a3 + a.a3 * b.a2 + a.a4 * b.a1) +
      2 ^ 312 * (a.a2 * b.a4 + a.a3 * b.a3 + a.a4 * b.a2) + 2 ^ 364 * (a.a3 * b.a4 + a.a4 * b.a3) + 2 ^ 416 * (a.a4 * b.a4) := by
    rw [val, val]
    ring
  unfold montMul
  obtain ⟨z0, w0, t0⟩ : ∃ z, z = a.a0 * b.a0 ∧ z < 2 ^ 107 := ⟨_, rfl, by omega⟩
  obtain ⟨z1, w1, t1⟩ : ∃ z, z = a.a0 * b.a1 + a.a1 * b.a0 ∧ z < 2 ^ 107 := ⟨_, rfl, by omega⟩
  obtain ⟨z2, w2, t2⟩ : ∃ z, z = a.a0 * b.a2 + a.a1 * b.a1 + a.a2 * b.a0 ∧ z < 2 ^ 107 := ⟨_, rfl, by omega⟩
  obtain ⟨z3, w3, t3⟩ : ∃ z, z = a.a0 * b.a3 + a.a1 * b.a2 + a.a2 * b.a1 + a.a3 * b.a0 ∧ z < 2 ^ 107 := ⟨_, rfl, by omega⟩
  obtain ⟨z4, w4, t4⟩ : ∃ z, z = a.a0 * b.a4 + a.a1 * b.a3 + a.a2 * b.a2 + a.a3 * b.a1 + a.a4 * b.a0 ∧ z < 2 ^ 107 := ⟨_, rfl, by omega⟩
  obtain ⟨z5, w5, t5⟩ : ∃ z, z = a.a1 * b.a4 + a.a2 * b.a3 + a.a3 * b.a2 + a.a4 * b.a1 ∧ z < 2 ^ 107 := ⟨_, rfl, by omega⟩
  obtain ⟨z6, w6, t6⟩ : ∃ z, z = a.a2 * b.a4 + a.a3 * b.a3 + a.a4 * b.a2 ∧ z < 2 ^ 107 := ⟨_, rfl, by omega⟩
  obtain ⟨z7, w7, t7⟩ : ∃ z, z = a.a3 * b.a4 + a.a4 * b.a3 ∧ z < 2 ^ 107 := ⟨_, rfl, by omega⟩
  obtain ⟨z8, w8, t8⟩ : ∃ z, z = a.a4 * b.a4 ∧ z < 2 ^ 107 := ⟨_, rfl, by omega⟩
  rw [← w0, ← w1, ← w2, ← w3, ← w4, ← w5, ← w6, ← w7, ← w8] at hT ⊢
  clear w0 w1 w2 w3 w4 w5 w6 w7 w8 p00 p01 p02 p03 p04 p10 p11 p12 p13 p14 p20 p21 p22 p23 p24 p30 p31 p32 p33 p34 p40 p41 p42 p43 p44
  rw [bind_u128 (by omega), bind_u128 (by omega), bind_u128 (by omega), bind_u128 (by omega), bind_u128 (by omega), bind_u128 (by omega), bind_u128 (by omega), bind_u128 (by omega), bind_u128 (by omega)]
  have l1 : L.a1 < 2 ^ 52 := by decide +kernel
  have l2 : L.a2 < 2 ^ 52 := by decide +kernel
  have l4 : L.a4 < 2 ^ 52 := by decide +kernel
  have l0 : L.a0 < 2 ^ 52 := by decide +kernel
  obtain ⟨c0, n0, q0, m0, e0⟩ := part1_spec (s := z0) (by omega)
  rw [bind_eq q0]
  have x01 := prod_lt m0 l1
  have x02 := prod_lt m0 l2
  have x04 := prod_lt m0 l4
  have x00 := prod_lt m0 l0
  dsimp only
  obtain ⟨c1, n1, q1, m1, e1⟩ := part1_spec (s := c0 + z1 + n0 * L.a1) (by omega)
  rw [bind_eq q1]
  dsimp only
  have x11 := prod_lt m1 l1
  have x12 := prod_lt m1 l2
  have x14 := prod_lt m1 l4
  have x10 := prod_lt m1 l0
  obtain ⟨c2, n2, q2, m2, e2⟩ := part1_spec (s := c1 + z2 + n0 * L.a2 + n1 * L.a1) (by omega)
  rw [bind_eq q2]
  dsimp only
  have x21 := prod_lt m2 l1
  have x22 := prod_lt m2 l2
  have x24 := prod_lt m2 l4
  have x20 := prod_lt m2 l0
  obtain ⟨c3, n3, q3, m3, e3⟩ := part1_spec (s := c2 + z3 + n1 * L.a2 + n2 * L.a1) (by omega)
  rw [bind_eq q3]
  dsimp only
  have x31 := prod_lt m3 l1
  have x32 := prod_lt m3 l2
  have x34 := prod_lt m3 l4
  have x30 := prod_lt m3 l0
  obtain ⟨c4, n4, q4, m4, e4⟩ := part1_spec (s := c3 + z4 + n0 * L.a4 + n2 * L.a2 + n3 * L.a1) (by omega)
  rw [bind_eq q4]
  dsimp only
  have x41 := prod_lt m4 l1
  have x42 := prod_lt m4 l2
  have x44 := prod_lt m4 l4
  have x40 := prod_lt m4 l0
  obtain ⟨c5, r0, q5, m5, e5⟩ := part2_spec (s := c4 + z5 + n1 * L.a4 + n3 * L.a2 + n4 * L.a1) (by omega)
  rw [bind_eq q5]
  dsimp only
  obtain ⟨c6, r1, q6, m6, e6⟩ := part2_spec (s := c5 + z6 + n2 * L.a4 + n4 * L.a2) (by omega)
  rw [bind_eq q6]
  dsimp only
  obtain ⟨c7, r2, q7, m7, e7⟩ := part2_spec (s := c6 + z7 + n3 * L.a4) (by omega)
  rw [bind_eq q7]
  dsimp only
  obtain ⟨c8, r3, q8, m8, e8⟩ := part2_spec (s := c7 + z8 + n4 * L.a4) (by omega)
  rw [bind_eq q8]
  dsimp only
  clear x00 x01 x02 x04 x10 x11 x12 x14 x20 x21 x22 x24 x30 x31 x32 x34 x40 x41 x42 x44 q0 q1 q2 q3 q4 q5 q6 q7 q8 t0 t1 t2 t3 t4 t5 t6 t7 t8
  obtain ⟨N, hN⟩ : ∃ N, N = n0 + 2 ^ 52 * n1 + 2 ^ 104 * n2 + 2 ^ 156 * n3 + 2 ^ 208 * n4 := ⟨_, rfl⟩
  have hN' : N < 2 ^ 260 := by omega
  have key : a.val * b.val + N * edL = 2 ^ 260 * (r0 + 2 ^ 52 * r1 + 2 ^ 104 * r2 + 2 ^ 156 * r3 + 2 ^ 208 * c8) := by
    rw [hT, ← L_val, val, hN, show L.a3 = 0 from rfl]
    linear_combination e0 + 2 ^ 52 * e1 + 2 ^ 104 * e2 + 2 ^ 156 * e3 + 2 ^ 208 * e4 + 2 ^ 260 * e5 + 2 ^ 312 * e6 + 2 ^ 364 * e7 +
      2 ^ 416 * e8
  have hlt : r0 + 2 ^ 52 * r1 + 2 ^ 104 * r2 + 2 ^ 156 * r3 + 2 ^ 208 * c8 < 2 * edL := by
    have : N * edL < 2 ^ 260 * edL := Nat.mul_lt_mul_of_pos_right hN' (by decide +kernel)
    refine Nat.lt_of_mul_lt_mul_left (a := 2 ^ 260) ?_
    rw [← key]
    linarith
  have hL : edL < 2 ^ 253 := by decide +kernel
  have hc : c8 < 2 ^ 52 := by omega
  rw [Nat.mod_eq_of_lt (show c8 < 2 ^ 64 by omega)]
  obtain ⟨f, hf, hf', hw⟩ := sub_spec (a := ⟨r0, r1, r2, r3, c8⟩) ⟨m5, m6, m7, m8, hc⟩ L_ok (by rw [L_val]; omega)
  rw [L_val] at hw
  have hval : Sc.val ⟨r0, r1, r2, r3, c8⟩ = r0 + 2 ^ 52 * r1 + 2 ^ 104 * r2 + 2 ^ 156 * r3 + 2 ^ 208 * c8 := rfl
  rw [← hval] at key hlt
  generalize Sc.val ⟨r0, r1, r2, r3, c8⟩ = r at *
  have hr : f.val < edL ∧ r ≡ f.val [MOD edL] := by
    clear key h hT
    generalize edL = l at *
    split at hw
    · exact ⟨by omega, ((Nat.modEq_iff_dvd' (by omega)).2 ⟨1, by omega⟩).symm⟩
    · exact ⟨by omega, by rw [hw, Nat.add_sub_cancel]⟩
  refine ⟨f, hf, hf', hr.1, ?_⟩
  refine (hr.2.symm.mul_right _).trans ?_
  rw [mul_comm, ← key]
  rw [Nat.ModEq, Nat.add_mul_mod_self_right]

theorem word_lt (n i : ℕ) : word n i < 2 ^ 64 := Nat.mod_lt _ (by norm_num)

theorem join_eq {x y s t : ℕ} (hx : x < 2 ^ 64) (hst : s + t = 64) : join x s y t = (x / 2 ^ s + y * 2 ^ t) % 2 ^ 52 := by
  have h64 : 2 ^ 64 = 2 ^ s * 2 ^ t := by rw [← pow_add, hst]
  have h1 : x / 2 ^ s < 2 ^ t := Nat.div_lt_of_lt_mul (by rwa [← h64])
  have h2 : y * 2 ^ t % 2 ^ 64 = y % 2 ^ s * 2 ^ t := by rw [h64, Nat.mul_mod_mul_right]
  rw [join, h2, lor_eq h1, ← h2]
  have h3 : x / 2 ^ s + y * 2 ^ t % 2 ^ 64 ≡ x / 2 ^ s + y * 2 ^ t [MOD 2 ^ 52] :=
    ((Nat.mod_modEq _ _).of_dvd (by norm_num)).add_left _
  exact h3

theorem join_lt (x s y t : ℕ) : join x s y t < 2 ^ 52 := Nat.mod_lt _ (by norm_num)

theorem ofNat_spec (n : ℕ) : (ofNat n).Ok ∧ (ofNat n).val = n % 2 ^ 256 := by
  refine ⟨⟨Nat.mod_lt _ (by norm_num), join_lt .., join_lt .., join_lt .., (Nat.mod_lt _ (by norm_num)).trans (by norm_num)⟩, ?_⟩
  have e0 : word n 0 % 2 ^ 52 = n % 2 ^ 52 := by rw [word]; norm_num
  have e1 : join (word n 0) 52 (word n 1) 12 = n / 2 ^ 52 % 2 ^ 52 := by
    rw [join_eq (word_lt _ _) rfl, word, word]; norm_num; omega
  have e2 : join (word n 1) 40 (word n 2) 24 = n / 2 ^ 104 % 2 ^ 52 := by
    rw [join_eq (word_lt _ _) rfl, word, word]; norm_num; omega
  have e3 : join (word n 2) 28 (word n 3) 36 = n / 2 ^ 156 % 2 ^ 52 := by
    rw [join_eq (word_lt _ _) rfl, word, word]; norm_num; omega
  have e4 : word n 3 / 2 ^ 16 % 2 ^ 48 = n / 2 ^ 208 % 2 ^ 48 := by
    rw [word]; norm_num; omega
  dsimp only [ofNat, val]
  rw [e0, e1, e2, e3, e4]
  omega

theorem toNat_spec {l : Sc} (h : l.Ok) (hv : l.val < 2 ^ 256) : l.toNat = l.val := by
  obtain ⟨h0, h1, h2, h3, h4⟩ := h
  have h4' : l.a4 < 2 ^ 48 := by
    rw [val] at hv
    omega
  rw [toNat, pack, lor_eq (by omega), lor_eq (by omega), val]
  simp only [List.map, Codec.leVal, UInt8.toNat_ofNat']
  generalize l.a0 = x0 at *
  generalize l.a1 = x1 at *
  generalize l.a2 = x2 at *
  generalize l.a3 = x3 at *
  generalize l.a4 = x4 at *
  have lo (x : ℕ) : x = x % 2 ^ 8 + 2 ^ 8 * (x / 2 ^ 8 % 2 ^ 8) + 2 ^ 16 * (x / 2 ^ 16 % 2 ^ 8) + 2 ^ 24 * (x / 2 ^ 24 % 2 ^ 8) +
      2 ^ 32 * (x / 2 ^ 32 % 2 ^ 8) + 2 ^ 40 * (x / 2 ^ 40 % 2 ^ 8) + 2 ^ 48 * (x / 2 ^ 48) := by omega
  have hi (x : ℕ) (hx : x < 2 ^ 52) : x = x % 2 ^ 4 + 2 ^ 4 * (x / 2 ^ 4 % 2 ^ 8) + 2 ^ 12 * (x / 2 ^ 12 % 2 ^ 8) +
      2 ^ 20 * (x / 2 ^ 20 % 2 ^ 8) + 2 ^ 28 * (x / 2 ^ 28 % 2 ^ 8) + 2 ^ 36 * (x / 2 ^ 36 % 2 ^ 8) + 2 ^ 44 * (x / 2 ^ 44 % 2 ^ 8) := by omega
  have j (x y : ℕ) (hx : x < 2 ^ 52) : (x / 2 ^ 48 + y * 2 ^ 4) % 2 ^ 8 = x / 2 ^ 48 + 2 ^ 4 * (y % 2 ^ 4) := by omega
  rw [j _ _ h0, j _ _ h2]
  conv_rhs => rw [lo x0, hi x1 h1, lo x2, hi x3 h3, lo x4, Nat.div_eq_of_lt h4']
  ring

theorem cancel {x y : ℕ} (h : x * 2 ^ 260 ≡ y * 2 ^ 260 [MOD edL]) : x ≡ y [MOD edL] :=
  h.cancel_right_of_coprime (by decide +kernel)

theorem R_modEq : R.val ≡ 2 ^ 260 [MOD edL] := by
  show R.val % edL = 2 ^ 260 % edL
  decide +kernel

theorem RR_modEq : RR.val ≡ 2 ^ 260 * 2 ^ 260 [MOD edL] := by
  show RR.val % edL = 2 ^ 260 * 2 ^ 260 % edL
  decide +kernel

theorem R_lt : R.val < edL := by decide +kernel

theorem RR_lt : RR.val < edL := by decide +kernel

theorem Ok.val_lt {a : Sc} (h : a.Ok) : a.val < 2 ^ 260 := by
  obtain ⟨h0, h1, h2, h3, h4⟩ := h
  rw [val]
  omega

/-- Multiplication by `R` reduces. -/
theorem montR_spec {a : Sc} (ha : a.Ok) : ∃ f, montMul a R = some f ∧ f.Ok ∧ f.val = a.val % edL := by
  obtain ⟨f, hf, hf', hlt, hm⟩ := montMul_spec ha R_ok (Nat.mul_lt_mul'' ha.val_lt R_lt)
  refine ⟨f, hf, hf', ?_⟩
  have := cancel (hm.trans (R_modEq.mul_left _))
  rw [← Nat.mod_eq_of_lt hlt]
  exact this

theorem montRR_spec {a : Sc} (ha : a.Ok) : ∃ f, montMul a RR = some f ∧ f.Ok ∧ f.val = a.val * 2 ^ 260 % edL := by
  obtain ⟨f, hf, hf', hlt, hm⟩ := montMul_spec ha RR_ok (Nat.mul_lt_mul'' ha.val_lt RR_lt)
  refine ⟨f, hf, hf', ?_⟩
  have h := hm.trans (RR_modEq.mul_left _)
  rw [← mul_assoc] at h
  rw [← Nat.mod_eq_of_lt hlt]
  exact cancel h

theorem mul_spec {a b : Sc} (ha : a.Ok) (hb : b.Ok) (h : a.val * b.val < 2 ^ 260 * edL) : ∃ f, mul a b = some f ∧ f.Ok ∧
    f.val = a.val * b.val % edL := by
  obtain ⟨f, hf, hf', -, hm⟩ := montMul_spec ha hb h
  obtain ⟨g, hg, hg', hv⟩ := montRR_spec hf'
  exact ⟨g, (bind_eq hf _).trans hg, hg', hv.trans hm⟩

theorem ofWide_spec {n : ℕ} (hn : n < 2 ^ 512) : ∃ f, ofWide n = some f ∧ f.Ok ∧ f.val = n % edL := by
  have e0 : word n 0 % 2 ^ 52 = n % 2 ^ 52 := by rw [word]; norm_num
  have e1 : join (word n 0) 52 (word n 1) 12 = n / 2 ^ 52 % 2 ^ 52 := by
    rw [join_eq (word_lt _ _) rfl, word, word]; norm_num; omega
  have e2 : join (word n 1) 40 (word n 2) 24 = n / 2 ^ 104 % 2 ^ 52 := by
    rw [join_eq (word_lt _ _) rfl, word, word]; norm_num; omega
  have e3 : join (word n 2) 28 (word n 3) 36 = n / 2 ^ 156 % 2 ^ 52 := by
    rw [join_eq (word_lt _ _) rfl, word, word]; norm_num; omega
  have e4 : join (word n 3) 16 (word n 4) 48 = n / 2 ^ 208 % 2 ^ 52 := by
    rw [join_eq (word_lt _ _) rfl, word, word]; norm_num; omega
  have e5 : word n 4 / 2 ^ 4 % 2 ^ 52 = n / 2 ^ 260 % 2 ^ 52 := by
    rw [word]; norm_num; omega
  have e6 : join (word n 4) 56 (word n 5) 8 = n / 2 ^ 312 % 2 ^ 52 := by
    rw [join_eq (word_lt _ _) rfl, word, word]; norm_num; omega
  have e7 : join (word n 5) 44 (word n 6) 20 = n / 2 ^ 364 % 2 ^ 52 := by
    rw [join_eq (word_lt _ _) rfl, word, word]; norm_num; omega
  have e8 : join (word n 6) 32 (word n 7) 32 = n / 2 ^ 416 % 2 ^ 52 := by
    rw [join_eq (word_lt _ _) rfl, word, word]; norm_num; omega
  have e9 : word n 7 / 2 ^ 20 = n / 2 ^ 468 := by
    rw [word]; norm_num; omega
  unfold ofWide
  rw [e0, e1, e2, e3, e4, e5, e6, e7, e8, e9]
  obtain ⟨lo, hlo, klo, vlo⟩ := montR_spec (a := ⟨n % 2 ^ 52, n / 2 ^ 52 % 2 ^ 52, n / 2 ^ 104 % 2 ^ 52, n / 2 ^ 156 % 2 ^ 52,
    n / 2 ^ 208 % 2 ^ 52⟩) ⟨by dsimp only; omega, by dsimp only; omega, by dsimp only; omega, by dsimp only; omega, by dsimp only; omega⟩
  obtain ⟨hi, hhi, khi, vhi⟩ := montRR_spec (a := ⟨n / 2 ^ 260 % 2 ^ 52, n / 2 ^ 312 % 2 ^ 52, n / 2 ^ 364 % 2 ^ 52, n / 2 ^ 416 % 2 ^ 52,
    n / 2 ^ 468⟩) ⟨by dsimp only; omega, by dsimp only; omega, by dsimp only; omega, by dsimp only; omega, by dsimp only; omega⟩
  rw [bind_eq hlo, bind_eq hhi]
  have hn' : n = Sc.val ⟨n % 2 ^ 52, n / 2 ^ 52 % 2 ^ 52, n / 2 ^ 104 % 2 ^ 52, n / 2 ^ 156 % 2 ^ 52, n / 2 ^ 208 % 2 ^ 52⟩ +
      Sc.val ⟨n / 2 ^ 260 % 2 ^ 52, n / 2 ^ 312 % 2 ^ 52, n / 2 ^ 364 % 2 ^ 52, n / 2 ^ 416 % 2 ^ 52, n / 2 ^ 468⟩ * 2 ^ 260 := by
    dsimp only [val]
    omega
  have hL : 0 < edL := by decide +kernel
  have hL' : edL < 2 ^ 253 := by decide +kernel
  have l1 : lo.val < edL := by rw [vlo]; exact Nat.mod_lt _ hL
  have l2 : hi.val < edL := by rw [vhi]; exact Nat.mod_lt _ hL
  obtain ⟨f, hf, hf', -, hm, hlt⟩ := add_spec khi klo (by omega)
  refine ⟨f, hf, hf', ?_⟩
  rw [← Nat.mod_eq_of_lt (hlt l2 l1), hn']
  refine Nat.ModEq.trans hm ?_
  rw [vlo, vhi, add_comm]
  exact (Nat.mod_modEq _ _).add (Nat.mod_modEq _ _)

end Sc

namespace Scalar

open Sc (bind_eq)

theorem lt256 {n : ℕ} (h : n < edL) : n < 2 ^ 256 := h.trans (by decide +kernel)

theorem edL_pos' : 0 < edL := by decide +kernel

theorem wide_spec (h : Bytes 64) : wide h = some (EdCurve.wide h) := by
  have hn : Codec.leVal h.1 < 2 ^ 512 := by
    have := Codec.leVal_lt h.1
    rw [h.2] at this
    exact this.trans_eq (by norm_num)
  obtain ⟨f, hf, hf', hv⟩ := Sc.ofWide_spec hn
  refine (bind_eq hf _).trans ?_
  rw [Sc.toNat_spec hf' (by rw [hv]; exact lt256 (Nat.mod_lt _ edL_pos')), hv]
  rfl

theorem reduce_spec {n : ℕ} (h : n < 2 ^ 256) : reduce n = some (n % edL) := by
  obtain ⟨h1, h2⟩ := Sc.ofNat_spec n
  obtain ⟨f, hf, hf', hv⟩ := Sc.montR_spec h1
  refine (bind_eq hf _).trans ?_
  rw [Sc.toNat_spec hf' (by rw [hv]; exact lt256 (Nat.mod_lt _ edL_pos')), hv, h2, Nat.mod_eq_of_lt h]
  rfl

theorem mul_spec {m n : ℕ} (hm : m < 2 ^ 256) (hn : n < 2 ^ 256) : mul m n = some (m * n % edL) := by
  obtain ⟨h1, h2⟩ := Sc.ofNat_spec m
  obtain ⟨h3, h4⟩ := Sc.ofNat_spec n
  rw [Nat.mod_eq_of_lt hm] at h2
  rw [Nat.mod_eq_of_lt hn] at h4
  obtain ⟨f, hf, hf', hv⟩ := Sc.mul_spec h1 h3 (by
    rw [h2, h4]
    calc m * n < 2 ^ 256 * 2 ^ 256 := Nat.mul_lt_mul'' hm hn
      _ ≤ 2 ^ 260 * edL := by decide +kernel)
  refine (bind_eq hf _).trans ?_
  rw [Sc.toNat_spec hf' (by rw [hv]; exact lt256 (Nat.mod_lt _ edL_pos')), hv, h2, h4]
  rfl

theorem add_spec {m n : ℕ} (hm : m < 2 ^ 256) (hn : n < 2 ^ 256) : add m n = some ((m + n) % edL) := by
  obtain ⟨h1, h2⟩ := Sc.ofNat_spec m
  obtain ⟨h3, h4⟩ := Sc.ofNat_spec n
  rw [Nat.mod_eq_of_lt hm] at h2
  rw [Nat.mod_eq_of_lt hn] at h4
  obtain ⟨s, hs, hs', -, hv, -⟩ := Sc.add_spec h1 h3 (by omega)
  obtain ⟨f, hf, hf', hw⟩ := Sc.montR_spec hs'
  refine (bind_eq hs _).trans ((bind_eq hf _).trans ?_)
  rw [Sc.toNat_spec hf' (by rw [hw]; exact lt256 (Nat.mod_lt _ edL_pos')), hw, hv, h2, h4]
  rfl

theorem neg_spec {n : ℕ} (hn : n < 2 ^ 256) : neg n = some ((edL - n % edL) % edL) := by
  obtain ⟨h1, h2⟩ := Sc.ofNat_spec n
  rw [Nat.mod_eq_of_lt hn] at h2
  obtain ⟨s, hs, hs', hv⟩ := Sc.montR_spec h1
  rw [h2] at hv
  have hlt : n % edL < edL := Nat.mod_lt _ edL_pos'
  obtain ⟨f, hf, hf', hw⟩ := Sc.sub_spec (a := ⟨0, 0, 0, 0, 0⟩) (by unfold Sc.Ok; decide +kernel) hs' (by rw [hv]; exact (hlt.le).trans (Nat.le_add_left _ _))
  have hz : Sc.val ⟨0, 0, 0, 0, 0⟩ = 0 := rfl
  have hw' : f.val = (edL - n % edL) % edL := by
    rw [hw, hv, hz]
    generalize n % edL = x at *
    have := edL_pos'
    generalize edL = l at *
    split
    · have : x = 0 := by omega
      rw [this, Nat.sub_zero, Nat.sub_zero, Nat.mod_self]
    · rw [Nat.mod_eq_of_lt (by omega), zero_add]
  refine (bind_eq hs _).trans ((bind_eq hf _).trans ?_)
  rw [Sc.toNat_spec hf' (by rw [hw']; exact lt256 (Nat.mod_lt _ edL_pos')), hw']
  rfl

theorem sum_spec (l : List ℕ) (h : ∀ n ∈ l, n < 2 ^ 256) : sum l = some (l.sum % edL) := by
  have key : ∀ (l : List ℕ) (a : ℕ), a < edL → (∀ n ∈ l, n < 2 ^ 256) → l.foldlM add a = some ((a + l.sum) % edL) := by
    intro l
    induction l with
    | nil =>
      intro a ha _
      rw [List.foldlM_nil, List.sum_nil, add_zero, Nat.mod_eq_of_lt ha]
      rfl
    | cons x l ih =>
      intro a ha h
      rw [List.foldlM_cons, bind_eq (add_spec (lt256 ha) (h x (by simp))), ih _ (Nat.mod_lt _ edL_pos') fun n hn => h n (by simp [hn]),
        Nat.mod_add_mod, List.sum_cons, add_assoc]
  rw [sum, key l 0 edL_pos' h, zero_add]

theorem check_spec {n : ℕ} (hn : n < 2 ^ 256) : check n = some (decide (n < edL)) := by
  have h1 : 2 ^ 252 < edL := by decide +kernel
  have h2 : edL < 2 ^ 255 := by decide +kernel
  unfold check
  split
  · rw [decide_eq_true (by omega)]
  · split
    · rw [decide_eq_false (by omega)]
    · rw [bind_eq (reduce_spec hn)]
      show some _ = some _
      congr 1
      rw [decide_eq_decide]
      constructor
      · intro h
        rw [h]
        exact Nat.mod_lt _ edL_pos'
      · exact fun h => (Nat.mod_eq_of_lt h).symm

end Scalar

section

variable {F : Type} [Add F] [Sub F] [Neg F] [Mul F] [Zero F] [One F] [FE F] (sha : List UInt8 → Bytes 64)

open EdCurve
open Sc (bind_eq)

theorem sOf_lt256 (sig : Bytes 64) : sOf sig < 2 ^ 256 := by
  have h := Codec.leVal_lt (sig.1.drop 32)
  rw [List.length_drop, sig.2] at h
  exact h.trans_eq (by norm_num)

theorem wide_lt256 (h : Bytes 64) : wide h < 2 ^ 256 := Scalar.lt256 (Nat.mod_lt _ Scalar.edL_pos')

theorem mapM_eq_some {α β : Type} (f : α → Option β) (g : α → β) (l : List α) (h : ∀ x ∈ l, f x = some (g x)) :
    l.mapM f = some (l.map g) := by
  induction l with
  | nil => rfl
  | cons x l ih =>
    rw [List.mapM_cons, bind_eq (h x (by simp)), bind_eq (ih fun y hy => h y (by simp [hy]))]
    rfl

theorem signS_eq (zs : List (List UInt8) → List (Bytes 64) → List (Bytes 32) → ℕ → ℕ) (b : Bytes 64) (msg : List UInt8) :
    signS F sha b msg = some ((ops F sha zs).sign b msg) := by
  have hc (v : ℕ) : clamp v < 2 ^ 256 := by
    rw [clamp]
    omega
  rw [signS]
  dsimp only
  rw [bind_eq (Scalar.wide_spec _), bind_eq (Scalar.wide_spec _), bind_eq (Scalar.mul_spec (wide_lt256 _) (hc _)),
    bind_eq (Scalar.add_spec (Scalar.lt256 (Nat.mod_lt _ Scalar.edL_pos')) (wide_lt256 _)), Nat.mod_add_mod]
  rfl

theorem strictS_eq (pk : Bytes 32) (msg : List UInt8) (sig : Bytes 64) :
    strictS F sha pk msg sig = some (strict F sha pk msg sig) := by
  rw [strictS, strict, bind_eq (Scalar.check_spec (sOf_lt256 sig))]
  by_cases h : sOf sig < edL
  · rw [if_pos h, if_pos (decide_eq_true h)]
    rcases (Ext.decompress (fst32 sig) : Option (Ext F)) with _ | R
    · rfl
    · rcases (Ext.decompress pk : Option (Ext F)) with _ | A
      · rfl
      · dsimp only
        split
        · rfl
        · rw [bind_eq (Scalar.wide_spec _)]
          rfl
  · rw [if_neg h, if_neg (by simpa using h)]
    rfl

theorem batchS_eq {z : ℕ → ℕ} (hz : ∀ i, z i < 2 ^ 256) (ms : List (List UInt8)) (ss : List (Bytes 64)) (ks : List (Bytes 32)) :
    batchS F sha z ms ss ks = some (batch F sha z ms ss ks) := by
  have hL (n : ℕ) : n % edL < 2 ^ 256 := Scalar.lt256 (Nat.mod_lt _ Scalar.edL_pos')
  have hzs : ∀ x ∈ (List.range ss.length).map z, x < 2 ^ 256 := by
    intro x hx
    obtain ⟨i, -, rfl⟩ := List.mem_map.1 hx
    exact hz i
  rw [batchS, batch]
  split
  · rw [bind_eq (mapM_eq_some _ (fun s => decide (sOf s < edL)) ss fun s _ => Scalar.check_spec (sOf_lt256 s))]
    rw [List.all_map, Function.id_comp]
    split
    · dsimp only
      rw [bind_eq (mapM_eq_some _ _ _ fun v _ => Scalar.wide_spec _),
        bind_eq (mapM_eq_some _ (fun p => p.2 * sOf p.1 % edL) _ fun p hp => Scalar.mul_spec (hzs _ (List.of_mem_zip hp).2) (sOf_lt256 _)),
        bind_eq (Scalar.sum_spec _ fun n hn => by
          obtain ⟨p, -, rfl⟩ := List.mem_map.1 hn
          exact hL _),
        bind_eq (mapM_eq_some _ (fun p => p.1 * p.2 % edL) _ fun p hp => Scalar.mul_spec (by
          obtain ⟨v, -, hv⟩ := List.mem_map.1 (List.of_mem_zip hp).1
          rw [← hv]
          exact wide_lt256 _) (hzs _ (List.of_mem_zip hp).2)),
        bind_eq (Scalar.neg_spec (hL _)), Nat.mod_mod]
      generalize (multiscalar _ _ : Option (Ext F)) = m
      rcases m with _ | e <;> rfl
    · rfl
  · rfl

end

end Verif.EdProj
