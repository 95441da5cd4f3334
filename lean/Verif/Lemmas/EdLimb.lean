import Verif.Model.EdLimb
import Verif.Lemmas.EdCoord

/-!
# Limbs of field elements: bounds and values
-/

namespace Verif.EdProj

/-- The number that limbs stand for. -/
def Fe.val (a : Fe) : ℕ := a.a0 + 2 ^ 51 * a.a1 + 2 ^ 102 * a.a2 + 2 ^ 153 * a.a3 + 2 ^ 204 * a.a4

/-- All limbs are below `B`. -/
def Fe.Lt (a : Fe) (B : ℕ) : Prop := a.a0 < B ∧ a.a1 < B ∧ a.a2 < B ∧ a.a3 < B ∧ a.a4 < B

namespace Fe

theorem Lt.mono {a : Fe} {B C : ℕ} (h : a.Lt B) (hBC : B ≤ C) : a.Lt C :=
  ⟨h.1.trans_le hBC, h.2.1.trans_le hBC, h.2.2.1.trans_le hBC, h.2.2.2.1.trans_le hBC, h.2.2.2.2.trans_le hBC⟩

theorem u64_eq {n : ℕ} (h : n < 2 ^ 64) : u64 n = some n := if_pos h

theorem u128_eq {n : ℕ} (h : n < 2 ^ 128) : u128 n = some n := if_pos h

theorem usub_eq {a b : ℕ} (h : b ≤ a) : usub a b = some (a - b) := if_pos h

theorem carry_spec {c0 c1 c2 c3 c4 : ℕ} (h0 : c0 < 77 * 2 ^ 108) (h1 : c1 < 77 * 2 ^ 108) (h2 : c2 < 77 * 2 ^ 108)
    (h3 : c3 < 77 * 2 ^ 108) (h4 : c4 < 5 * 2 ^ 108) : ∃ f, carry c0 c1 c2 c3 c4 = some f ∧ f.Lt (2 ^ 51 + 2 ^ 13) ∧
      ∃ k, c0 + 2 ^ 51 * c1 + 2 ^ 102 * c2 + 2 ^ 153 * c3 + 2 ^ 204 * c4 = f.val + k * (2 ^ 255 - 19) := by
  unfold carry
  rw [u128_eq (by omega), u128_eq (by omega), u128_eq (by omega), u128_eq (by omega), u128_eq (by omega)]
  simp only [Option.bind_eq_bind, Option.bind_some]
  rw [Nat.mod_eq_of_lt (show c0 / 2 ^ 51 < 2 ^ 64 by omega), u128_eq (by omega), Option.bind_some]
  obtain ⟨d1, hd1⟩ : ∃ d, d = c1 + c0 / 2 ^ 51 := ⟨_, rfl⟩
  rw [← hd1, Nat.mod_eq_of_lt (show d1 / 2 ^ 51 < 2 ^ 64 by omega), u128_eq (by omega), Option.bind_some]
  obtain ⟨d2, hd2⟩ : ∃ d, d = c2 + d1 / 2 ^ 51 := ⟨_, rfl⟩
  rw [← hd2, Nat.mod_eq_of_lt (show d2 / 2 ^ 51 < 2 ^ 64 by omega), u128_eq (by omega), Option.bind_some]
  obtain ⟨d3, hd3⟩ : ∃ d, d = c3 + d2 / 2 ^ 51 := ⟨_, rfl⟩
  rw [← hd3, Nat.mod_eq_of_lt (show d3 / 2 ^ 51 < 2 ^ 64 by omega), u128_eq (by omega), Option.bind_some]
  obtain ⟨d4, hd4⟩ : ∃ d, d = c4 + d3 / 2 ^ 51 := ⟨_, rfl⟩
  rw [← hd4, Nat.mod_eq_of_lt (show d4 / 2 ^ 51 < 2 ^ 64 by omega), u64_eq (by omega), Option.bind_some, u64_eq (by omega),
    Option.bind_some]
  obtain ⟨o0, ho0⟩ : ∃ d, d = c0 % 2 ^ 51 + d4 / 2 ^ 51 * 19 := ⟨_, rfl⟩
  rw [← ho0, u64_eq (by omega), Option.bind_some]
  refine ⟨_, rfl, ⟨?_, ?_, ?_, ?_, ?_⟩, d4 / 2 ^ 51, ?_⟩
  · dsimp only; omega
  · dsimp only; omega
  · dsimp only; omega
  · dsimp only; omega
  · dsimp only; omega
  · dsimp only [val]
    omega

theorem reduce_spec {a : Fe} (h : a.Lt (2 ^ 64)) : ∃ f, reduce a = some f ∧ f.Lt (2 ^ 51 + 2 ^ 18) ∧
    ∃ k, a.val = f.val + k * (2 ^ 255 - 19) := by
  obtain ⟨h0, h1, h2, h3, h4⟩ := h
  unfold reduce
  simp only [Option.bind_eq_bind]
  rw [u64_eq (by omega), u64_eq (by omega), u64_eq (by omega), u64_eq (by omega), u64_eq (by omega)]
  refine ⟨_, rfl, ⟨?_, ?_, ?_, ?_, ?_⟩, a.a4 / 2 ^ 51, ?_⟩
  · dsimp only; omega
  · dsimp only; omega
  · dsimp only; omega
  · dsimp only; omega
  · dsimp only; omega
  · dsimp only [val]
    omega

theorem add_spec {a b : Fe} {A B : ℕ} (ha : a.Lt A) (hb : b.Lt B) (h : A + B ≤ 2 ^ 64) : ∃ f, add a b = some f ∧ f.Lt (A + B) ∧
    f.val = a.val + b.val := by
  obtain ⟨h0, h1, h2, h3, h4⟩ := ha
  obtain ⟨g0, g1, g2, g3, g4⟩ := hb
  unfold add
  rw [u64_eq (by omega), u64_eq (by omega), u64_eq (by omega), u64_eq (by omega), u64_eq (by omega)]
  refine ⟨_, rfl, ⟨?_, ?_, ?_, ?_, ?_⟩, ?_⟩
  · dsimp only; omega
  · dsimp only; omega
  · dsimp only; omega
  · dsimp only; omega
  · dsimp only; omega
  · dsimp only [val]
    omega

theorem sub_spec {a b : Fe} (ha : a.Lt (2 ^ 54)) (hb : b.Lt (2 ^ 54)) : ∃ f, sub a b = some f ∧ f.Lt (2 ^ 51 + 2 ^ 18) ∧
    ∃ k, a.val + 16 * (2 ^ 255 - 19) = b.val + f.val + k * (2 ^ 255 - 19) := by
  obtain ⟨h0, h1, h2, h3, h4⟩ := ha
  obtain ⟨g0, g1, g2, g3, g4⟩ := hb
  unfold sub
  obtain ⟨t0, e0⟩ : ∃ s, s = a.a0 + 36028797018963664 := ⟨_, rfl⟩
  obtain ⟨t1, e1⟩ : ∃ s, s = a.a1 + 36028797018963952 := ⟨_, rfl⟩
  obtain ⟨t2, e2⟩ : ∃ s, s = a.a2 + 36028797018963952 := ⟨_, rfl⟩
  obtain ⟨t3, e3⟩ : ∃ s, s = a.a3 + 36028797018963952 := ⟨_, rfl⟩
  obtain ⟨t4, e4⟩ : ∃ s, s = a.a4 + 36028797018963952 := ⟨_, rfl⟩
  rw [← e0, ← e1, ← e2, ← e3, ← e4, u64_eq (by omega), u64_eq (by omega), u64_eq (by omega), u64_eq (by omega), u64_eq (by omega)]
  simp only [Option.bind_eq_bind, Option.bind_some]
  rw [usub_eq (by omega), usub_eq (by omega), usub_eq (by omega), usub_eq (by omega), usub_eq (by omega)]
  simp only [Option.bind_some]
  obtain ⟨f, hf, hf', k, hk⟩ := reduce_spec (a := ⟨t0 - b.a0, t1 - b.a1, t2 - b.a2, t3 - b.a3, t4 - b.a4⟩) ⟨by dsimp only; omega,
    by dsimp only; omega, by dsimp only; omega, by dsimp only; omega, by dsimp only; omega⟩
  refine ⟨f, hf, hf', k, ?_⟩
  dsimp only [val] at hk ⊢
  omega

theorem neg_spec {a : Fe} (ha : a.Lt (2 ^ 54)) : ∃ f, neg a = some f ∧ f.Lt (2 ^ 51 + 2 ^ 18) ∧
    ∃ k, 16 * (2 ^ 255 - 19) = a.val + f.val + k * (2 ^ 255 - 19) := by
  obtain ⟨h0, h1, h2, h3, h4⟩ := ha
  unfold neg
  rw [usub_eq (by omega), usub_eq (by omega), usub_eq (by omega), usub_eq (by omega), usub_eq (by omega)]
  simp only [Option.bind_eq_bind, Option.bind_some]
  obtain ⟨f, hf, hf', k, hk⟩ := reduce_spec (a := ⟨36028797018963664 - a.a0, 36028797018963952 - a.a1,
    36028797018963952 - a.a2, 36028797018963952 - a.a3, 36028797018963952 - a.a4⟩)
    ⟨by dsimp only; omega, by dsimp only; omega, by dsimp only; omega, by dsimp only; omega, by dsimp only; omega⟩
  refine ⟨f, hf, hf', k, ?_⟩
  dsimp only [val] at hk ⊢
  omega

theorem prod_lt {x y : ℕ} (hx : x < 2 ^ 54) (hy : y < 2 ^ 54) : x * y < 2 ^ 108 := by
  calc x * y < 2 ^ 54 * 2 ^ 54 := Nat.mul_lt_mul'' hx hy
    _ = 2 ^ 108 := by norm_num

theorem small_eq {a : Fe} (h : a.Lt (2 ^ 54)) : a.small = true := decide_eq_true h

theorem mul_spec {a b : Fe} (ha : a.Lt (2 ^ 54)) (hb : b.Lt (2 ^ 54)) : ∃ f, mul a b = some f ∧ f.Lt (2 ^ 51 + 2 ^ 13) ∧
    ∃ k l, a.val * b.val = f.val + k * (2 ^ 255 - 19) + l * (2 ^ 255 - 19) := by
  have sa := small_eq ha
  have sb := small_eq hb
  obtain ⟨h0, h1, h2, h3, h4⟩ := ha
  obtain ⟨g0, g1, g2, g3, g4⟩ := hb
  unfold mul
  rw [u64_eq (by omega), u64_eq (by omega), u64_eq (by omega), u64_eq (by omega), sa, sb]
  have p00 := prod_lt h0 g0
  have p01 := prod_lt h0 g1
  have p02 := prod_lt h0 g2
  have p03 := prod_lt h0 g3
  have p04 := prod_lt h0 g4
  have p10 := prod_lt h1 g0
  have p11 := prod_lt h1 g1
  have p12 := prod_lt h1 g2
  have p13 := prod_lt h1 g3
  have p14 := prod_lt h1 g4
  have p20 := prod_lt h2 g0
  have p21 := prod_lt h2 g1
  have p22 := prod_lt h2 g2
  have p23 := prod_lt h2 g3
  have p24 := prod_lt h2 g4
  have p30 := prod_lt h3 g0
  have p31 := prod_lt h3 g1
  have p32 := prod_lt h3 g2
  have p33 := prod_lt h3 g3
  have p34 := prod_lt h3 g4
  have p40 := prod_lt h4 g0
  have p41 := prod_lt h4 g1
  have p42 := prod_lt h4 g2
  have p43 := prod_lt h4 g3
  have p44 := prod_lt h4 g4
  obtain ⟨f, hf, hf', k, hk⟩ := carry_spec (c0 := a.a0 * b.a0 + a.a4 * (b.a1 * 19) + a.a3 * (b.a2 * 19) + a.a2 * (b.a3 * 19) + a.a1 * (b.a4 * 19))
    (c1 := a.a1 * b.a0 + a.a0 * b.a1 + a.a4 * (b.a2 * 19) + a.a3 * (b.a3 * 19) + a.a2 * (b.a4 * 19))
    (c2 := a.a2 * b.a0 + a.a1 * b.a1 + a.a0 * b.a2 + a.a4 * (b.a3 * 19) + a.a3 * (b.a4 * 19))
    (c3 := a.a3 * b.a0 + a.a2 * b.a1 + a.a1 * b.a2 + a.a0 * b.a3 + a.a4 * (b.a4 * 19))
    (c4 := a.a4 * b.a0 + a.a3 * b.a1 + a.a2 * b.a2 + a.a1 * b.a3 + a.a0 * b.a4)
    (by simp only [← mul_assoc]; omega) (by simp only [← mul_assoc]; omega) (by simp only [← mul_assoc]; omega)
    (by simp only [← mul_assoc]; omega) (by omega)
  refine ⟨f, hf, hf', k, (a.a4 * b.a1 + a.a3 * b.a2 + a.a2 * b.a3 + a.a1 * b.a4) +
    2 ^ 51 * (a.a4 * b.a2 + a.a3 * b.a3 + a.a2 * b.a4) + 2 ^ 102 * (a.a4 * b.a3 + a.a3 * b.a4) + 2 ^ 153 * (a.a4 * b.a4), ?_⟩
  rw [← hk, val, val]
  norm_num
  ring

theorem square_spec {a : Fe} (ha : a.Lt (2 ^ 54)) : ∃ f, square a = some f ∧ f.Lt (2 ^ 51 + 2 ^ 13) ∧
    ∃ k l, a.val * a.val = f.val + k * (2 ^ 255 - 19) + l * (2 ^ 255 - 19) := by
  have sa := small_eq ha
  obtain ⟨h0, h1, h2, h3, h4⟩ := ha
  unfold square
  rw [u64_eq (by omega), u64_eq (by omega), sa]
  have p00 := prod_lt h0 h0
  have p01 := prod_lt h0 h1
  have p02 := prod_lt h0 h2
  have p03 := prod_lt h0 h3
  have p04 := prod_lt h0 h4
  have p11 := prod_lt h1 h1
  have p12 := prod_lt h1 h2
  have p13 := prod_lt h1 h3
  have p14 := prod_lt h1 h4
  have p22 := prod_lt h2 h2
  have p23 := prod_lt h2 h3
  have p24 := prod_lt h2 h4
  have p33 := prod_lt h3 h3
  have p43 := prod_lt h4 h3
  have p44 := prod_lt h4 h4
  obtain ⟨f, hf, hf', k, hk⟩ := carry_spec (c0 := a.a0 * a.a0 + 2 * (a.a1 * (19 * a.a4) + a.a2 * (19 * a.a3)))
    (c1 := a.a3 * (19 * a.a3) + 2 * (a.a0 * a.a1 + a.a2 * (19 * a.a4)))
    (c2 := a.a1 * a.a1 + 2 * (a.a0 * a.a2 + a.a4 * (19 * a.a3)))
    (c3 := a.a4 * (19 * a.a4) + 2 * (a.a0 * a.a3 + a.a1 * a.a2))
    (c4 := a.a2 * a.a2 + 2 * (a.a0 * a.a4 + a.a1 * a.a3))
    (by simp only [mul_left_comm _ 19]; omega) (by simp only [mul_left_comm _ 19]; omega) (by simp only [mul_left_comm _ 19]; omega)
    (by simp only [mul_left_comm _ 19]; omega) (by omega)
  refine ⟨f, hf, hf', k, 2 * (a.a1 * a.a4 + a.a2 * a.a3) + 2 ^ 51 * (a.a3 * a.a3 + 2 * (a.a2 * a.a4)) +
    2 ^ 102 * (2 * (a.a4 * a.a3)) + 2 ^ 153 * (a.a4 * a.a4), ?_⟩
  rw [← hk, val]
  norm_num
  ring

theorem canon_spec {a : Fe} (h : a.Lt (2 ^ 64)) : ∃ f, canon a = some f ∧ f.Lt (2 ^ 51) ∧ f.val = a.val % (2 ^ 255 - 19) := by
  obtain ⟨l, hl, ⟨h0, h1, h2, h3, h4⟩, k, hk⟩ := reduce_spec h
  unfold canon
  rw [hl]
  simp only [Option.bind_eq_bind, Option.bind_some]
  rw [u64_eq (by omega), Option.bind_some]
  obtain ⟨q0, hq0⟩ : ∃ d, d = (l.a0 + 19) / 2 ^ 51 := ⟨_, rfl⟩
  rw [← hq0, u64_eq (by omega), Option.bind_some]
  obtain ⟨q1, hq1⟩ : ∃ d, d = (l.a1 + q0) / 2 ^ 51 := ⟨_, rfl⟩
  rw [← hq1, u64_eq (by omega), Option.bind_some]
  obtain ⟨q2, hq2⟩ : ∃ d, d = (l.a2 + q1) / 2 ^ 51 := ⟨_, rfl⟩
  rw [← hq2, u64_eq (by omega), Option.bind_some]
  obtain ⟨q3, hq3⟩ : ∃ d, d = (l.a3 + q2) / 2 ^ 51 := ⟨_, rfl⟩
  rw [← hq3, u64_eq (by omega), Option.bind_some]
  obtain ⟨q, hq⟩ : ∃ d, d = (l.a4 + q3) / 2 ^ 51 := ⟨_, rfl⟩
  rw [← hq, u64_eq (by omega), Option.bind_some]
  obtain ⟨m0, hm0⟩ : ∃ d, d = l.a0 + 19 * q := ⟨_, rfl⟩
  rw [← hm0, u64_eq (by omega), Option.bind_some]
  obtain ⟨m1, hm1⟩ : ∃ d, d = l.a1 + m0 / 2 ^ 51 := ⟨_, rfl⟩
  rw [← hm1, u64_eq (by omega), Option.bind_some]
  obtain ⟨m2, hm2⟩ : ∃ d, d = l.a2 + m1 / 2 ^ 51 := ⟨_, rfl⟩
  rw [← hm2, u64_eq (by omega), Option.bind_some]
  obtain ⟨m3, hm3⟩ : ∃ d, d = l.a3 + m2 / 2 ^ 51 := ⟨_, rfl⟩
  rw [← hm3, u64_eq (by omega), Option.bind_some]
  obtain ⟨m4, hm4⟩ : ∃ d, d = l.a4 + m3 / 2 ^ 51 := ⟨_, rfl⟩
  rw [← hm4]
  refine ⟨_, rfl, ⟨Nat.mod_lt _ (by norm_num), Nat.mod_lt _ (by norm_num), Nat.mod_lt _ (by norm_num), Nat.mod_lt _ (by norm_num),
    Nat.mod_lt _ (by norm_num)⟩, ?_⟩
  have e : l.val = (m0 % 2 ^ 51 + 2 ^ 51 * (m1 % 2 ^ 51) + 2 ^ 102 * (m2 % 2 ^ 51) + 2 ^ 153 * (m3 % 2 ^ 51) + 2 ^ 204 * (m4 % 2 ^ 51)) +
      q * (2 ^ 255 - 19) ∧ (m0 % 2 ^ 51 + 2 ^ 51 * (m1 % 2 ^ 51) + 2 ^ 102 * (m2 % 2 ^ 51) + 2 ^ 153 * (m3 % 2 ^ 51) +
      2 ^ 204 * (m4 % 2 ^ 51)) < 2 ^ 255 - 19 := by
    have hv : l.val + 19 = (l.a0 + 19) % 2 ^ 51 + 2 ^ 51 * ((l.a1 + q0) % 2 ^ 51) + 2 ^ 102 * ((l.a2 + q1) % 2 ^ 51) +
        2 ^ 153 * ((l.a3 + q2) % 2 ^ 51) + 2 ^ 204 * ((l.a4 + q3) % 2 ^ 51) + 2 ^ 255 * q := by
      rw [val]; omega
    have hw : l.val + 19 * q = m0 % 2 ^ 51 + 2 ^ 51 * (m1 % 2 ^ 51) + 2 ^ 102 * (m2 % 2 ^ 51) + 2 ^ 153 * (m3 % 2 ^ 51) +
        2 ^ 204 * (m4 % 2 ^ 51) + 2 ^ 255 * (m4 / 2 ^ 51) := by
      rw [val]; omega
    have hl : l.val < 2 ^ 255 + 2 ^ 224 := by
      rw [val]; omega
    have b0 : (l.a0 + 19) % 2 ^ 51 + 2 ^ 51 * ((l.a1 + q0) % 2 ^ 51) + 2 ^ 102 * ((l.a2 + q1) % 2 ^ 51) +
        2 ^ 153 * ((l.a3 + q2) % 2 ^ 51) + 2 ^ 204 * ((l.a4 + q3) % 2 ^ 51) < 2 ^ 255 := by
      omega
    have b1 : m0 % 2 ^ 51 + 2 ^ 51 * (m1 % 2 ^ 51) + 2 ^ 102 * (m2 % 2 ^ 51) + 2 ^ 153 * (m3 % 2 ^ 51) +
        2 ^ 204 * (m4 % 2 ^ 51) < 2 ^ 255 := by
      omega
    clear hk hm0 hm1 hm2 hm3 hm4 hq0 hq1 hq2 hq3 hq h0 h1 h2 h3 h4
    generalize (l.a0 + 19) % 2 ^ 51 + 2 ^ 51 * ((l.a1 + q0) % 2 ^ 51) + 2 ^ 102 * ((l.a2 + q1) % 2 ^ 51) +
        2 ^ 153 * ((l.a3 + q2) % 2 ^ 51) + 2 ^ 204 * ((l.a4 + q3) % 2 ^ 51) = X at *
    generalize m0 % 2 ^ 51 + 2 ^ 51 * (m1 % 2 ^ 51) + 2 ^ 102 * (m2 % 2 ^ 51) + 2 ^ 153 * (m3 % 2 ^ 51) +
        2 ^ 204 * (m4 % 2 ^ 51) = Y at *
    generalize l.val = v at *
    generalize m4 / 2 ^ 51 = z at *
    have hq : q = 0 ∨ q = 1 := by omega
    have hz : z = 0 ∨ z = 1 := by omega
    rcases hq with rfl | rfl <;> rcases hz with rfl | rfl <;> omega
  obtain ⟨e, e'⟩ := e
  rw [hk, e, Nat.add_mul_mod_self_right, Nat.add_mul_mod_self_right, Nat.mod_eq_of_lt e', val]

theorem lor_eq {x y k : ℕ} (h : x < 2 ^ k) : x ||| y * 2 ^ k = x + y * 2 ^ k := by
  rw [Nat.or_comm, mul_comm, ← Nat.two_pow_add_eq_or_of_lt h, add_comm]

theorem pack_spec {l : Fe} (h : l.Lt (2 ^ 51)) : Codec.leVal (l.pack.map UInt8.ofNat) = l.val := by
  obtain ⟨h0, h1, h2, h3, h4⟩ := h
  rw [pack, lor_eq (by omega), lor_eq (by omega), lor_eq (by omega), lor_eq (by omega), val]
  simp only [List.map, Codec.leVal, UInt8.toNat_ofNat']
  generalize l.a0 = x0 at *
  generalize l.a1 = x1 at *
  generalize l.a2 = x2 at *
  generalize l.a3 = x3 at *
  generalize l.a4 = x4 at *
  have e0 : x0 = x0 % 2 ^ 8 + 2 ^ 8 * (x0 / 2 ^ 8 % 2 ^ 8) + 2 ^ 16 * (x0 / 2 ^ 16 % 2 ^ 8) + 2 ^ 24 * (x0 / 2 ^ 24 % 2 ^ 8) +
      2 ^ 32 * (x0 / 2 ^ 32 % 2 ^ 8) + 2 ^ 40 * (x0 / 2 ^ 40 % 2 ^ 8) + 2 ^ 48 * (x0 / 2 ^ 48) := by omega
  have e1 : x1 = x1 % 2 ^ 5 + 2 ^ 5 * (x1 / 2 ^ 5 % 2 ^ 8) + 2 ^ 13 * (x1 / 2 ^ 13 % 2 ^ 8) + 2 ^ 21 * (x1 / 2 ^ 21 % 2 ^ 8) +
      2 ^ 29 * (x1 / 2 ^ 29 % 2 ^ 8) + 2 ^ 37 * (x1 / 2 ^ 37 % 2 ^ 8) + 2 ^ 45 * (x1 / 2 ^ 45) := by omega
  have e2 : x2 = x2 % 2 ^ 2 + 2 ^ 2 * (x2 / 2 ^ 2 % 2 ^ 8) + 2 ^ 10 * (x2 / 2 ^ 10 % 2 ^ 8) + 2 ^ 18 * (x2 / 2 ^ 18 % 2 ^ 8) +
      2 ^ 26 * (x2 / 2 ^ 26 % 2 ^ 8) + 2 ^ 34 * (x2 / 2 ^ 34 % 2 ^ 8) + 2 ^ 42 * (x2 / 2 ^ 42 % 2 ^ 8) + 2 ^ 50 * (x2 / 2 ^ 50) := by omega
  have e3 : x3 = x3 % 2 ^ 7 + 2 ^ 7 * (x3 / 2 ^ 7 % 2 ^ 8) + 2 ^ 15 * (x3 / 2 ^ 15 % 2 ^ 8) + 2 ^ 23 * (x3 / 2 ^ 23 % 2 ^ 8) +
      2 ^ 31 * (x3 / 2 ^ 31 % 2 ^ 8) + 2 ^ 39 * (x3 / 2 ^ 39 % 2 ^ 8) + 2 ^ 47 * (x3 / 2 ^ 47) := by omega
  have e4 : x4 = x4 % 2 ^ 4 + 2 ^ 4 * (x4 / 2 ^ 4 % 2 ^ 8) + 2 ^ 12 * (x4 / 2 ^ 12 % 2 ^ 8) + 2 ^ 20 * (x4 / 2 ^ 20 % 2 ^ 8) +
      2 ^ 28 * (x4 / 2 ^ 28 % 2 ^ 8) + 2 ^ 36 * (x4 / 2 ^ 36 % 2 ^ 8) + 2 ^ 44 * (x4 / 2 ^ 44 % 2 ^ 8) := by omega
  have j0 : (x0 / 2 ^ 48 + x1 * 2 ^ 3) % 2 ^ 8 = x0 / 2 ^ 48 + 2 ^ 3 * (x1 % 2 ^ 5) := by omega
  have j1 : (x1 / 2 ^ 45 + x2 * 2 ^ 6) % 2 ^ 8 = x1 / 2 ^ 45 + 2 ^ 6 * (x2 % 2 ^ 2) := by omega
  have j2 : (x2 / 2 ^ 50 + x3 * 2 ^ 1) % 2 ^ 8 = x2 / 2 ^ 50 + 2 ^ 1 * (x3 % 2 ^ 7) := by omega
  have j3 : (x3 / 2 ^ 47 + x4 * 2 ^ 4) % 2 ^ 8 = x3 / 2 ^ 47 + 2 ^ 4 * (x4 % 2 ^ 4) := by omega
  rw [j0, j1, j2, j3]
  conv_rhs => rw [e0, e1, e2, e3, e4]
  ring

theorem ofNat_spec (n : ℕ) : (ofNat n).Lt (2 ^ 51) ∧ (ofNat n).val = n % 2 ^ 255 := by
  refine ⟨⟨Nat.mod_lt _ (by norm_num), Nat.mod_lt _ (by norm_num), Nat.mod_lt _ (by norm_num), Nat.mod_lt _ (by norm_num),
    Nat.mod_lt _ (by norm_num)⟩, ?_⟩
  have e0 : n / 256 ^ 0 % 2 ^ 64 % 2 ^ 51 = n % 2 ^ 51 := by omega
  have e1 : n / 256 ^ 6 % 2 ^ 64 / 2 ^ 3 % 2 ^ 51 = n / 2 ^ 51 % 2 ^ 51 := by omega
  have e2 : n / 256 ^ 12 % 2 ^ 64 / 2 ^ 6 % 2 ^ 51 = n / 2 ^ 102 % 2 ^ 51 := by omega
  have e3 : n / 256 ^ 19 % 2 ^ 64 / 2 ^ 1 % 2 ^ 51 = n / 2 ^ 153 % 2 ^ 51 := by omega
  have e4 : n / 256 ^ 24 % 2 ^ 64 / 2 ^ 12 % 2 ^ 51 = n / 2 ^ 204 % 2 ^ 51 := by omega
  rw [val]
  dsimp only [ofNat]
  rw [e0, e1, e2, e3, e4]
  omega

theorem square_rel {a : Fe} {x : EdF} (ha : a.Lt (2 ^ 54)) (hx : (a.val : EdF) = x) :
    ∃ f, square a = some f ∧ f.Lt (2 ^ 51 + 2 ^ 13) ∧ (f.val : EdF) = x * x := by
  obtain ⟨f, hf, hf', k, l, h⟩ := square_spec ha
  refine ⟨f, hf, hf', ?_⟩
  have := congrArg (Nat.cast : ℕ → EdF) h
  rw [Nat.cast_mul, Nat.cast_add, Nat.cast_add, Nat.cast_mul, Nat.cast_mul, ← edP, ZMod.natCast_self, mul_zero, mul_zero, add_zero,
    add_zero, hx] at this
  exact this.symm

theorem pow2k_rel {a : Fe} {x : EdF} (k : ℕ) (hk : 0 < k) (ha : a.Lt (2 ^ 54)) (hx : (a.val : EdF) = x) :
    ∃ f, pow2k k a = some f ∧ f.Lt (2 ^ 51 + 2 ^ 13) ∧ (f.val : EdF) = x ^ 2 ^ k := by
  induction k generalizing a x with
  | zero => exact absurd hk (lt_irrefl 0)
  | succ k ih =>
    obtain ⟨f, hf, hf', hx'⟩ := square_rel ha hx
    rcases Nat.eq_zero_or_pos k with rfl | hk
    · exact ⟨f, hf, hf', by rw [hx', zero_add, pow_one, pow_two]⟩
    · obtain ⟨g, hg, hg', hy⟩ := ih hk (hf'.mono (by norm_num)) hx'
      refine ⟨g, ?_, hg', by rw [hy, ← pow_two, ← pow_mul, ← pow_succ']⟩
      obtain ⟨k, rfl⟩ := Nat.exists_eq_succ_of_ne_zero hk.ne'
      rw [pow2k, hf]
      exact hg

theorem square2_rel {a : Fe} {x : EdF} (ha : a.Lt (2 ^ 54)) (hx : (a.val : EdF) = x) :
    ∃ f, square2 a = some f ∧ f.Lt (2 ^ 53) ∧ (f.val : EdF) = 2 * (x * x) := by
  obtain ⟨s, hs, ⟨h0, h1, h2, h3, h4⟩, hx'⟩ := square_rel ha hx
  unfold square2
  rw [pow2k, hs]
  simp only [Option.bind_eq_bind, Option.bind_some]
  rw [u64_eq (by omega), u64_eq (by omega), u64_eq (by omega), u64_eq (by omega), u64_eq (by omega)]
  refine ⟨_, rfl, ⟨?_, ?_, ?_, ?_, ?_⟩, ?_⟩
  · dsimp only; omega
  · dsimp only; omega
  · dsimp only; omega
  · dsimp only; omega
  · dsimp only; omega
  · rw [show val _ = 2 * s.val by dsimp only [val]; ring, Nat.cast_mul, Nat.cast_two, hx']

end Fe

namespace Limb

/-- The limbs are below `B` and stand for `x`; in particular nothing has overflowed. -/
def Is (B : ℕ) (a : Limb) (x : EdF) : Prop := ∃ f, a.get = some f ∧ f.Lt B ∧ (f.val : EdF) = x

theorem Is.mono {B C : ℕ} {a : Limb} {x : EdF} (h : Is B a x) (hBC : B ≤ C) : Is C a x := by
  obtain ⟨f, h1, h2, h3⟩ := h
  exact ⟨f, h1, h2.mono hBC, h3⟩

theorem cast_sub {p a b f k : ℕ} (h : a + 16 * p = b + f + k * p) : (f : ZMod p) = a - b := by
  have := congrArg (Nat.cast : ℕ → ZMod p) h
  push_cast at this
  rw [ZMod.natCast_self, mul_zero, mul_zero, add_zero, add_zero] at this
  rw [this, add_sub_cancel_left]

theorem cast_neg {p a f k : ℕ} (h : 16 * p = a + f + k * p) : (f : ZMod p) = -a := by
  have := cast_sub (p := p) (a := 0) (b := a) (f := f) (k := k) (by rw [zero_add, h])
  rwa [Nat.cast_zero, zero_sub] at this

theorem cast_p (k : ℕ) : ((k * (2 ^ 255 - 19) : ℕ) : EdF) = 0 := by
  rw [Nat.cast_mul, ← edP, ZMod.natCast_self, mul_zero]

theorem bind2 (op : Fe → Fe → Option Fe) {a b : Limb} {f g : Fe} (h : a.get = some f) (h' : b.get = some g) :
    (do op (← a.get) (← b.get)) = op f g := by
  rw [h, h']
  rfl

theorem bind1 (op : Fe → Option Fe) {a : Limb} {f : Fe} (h : a.get = some f) : (do op (← a.get)) = op f := by
  rw [h]
  rfl

theorem is_add {A B : ℕ} {a b : Limb} {x y : EdF} (h : Is A a x) (h' : Is B b y) (hAB : A + B ≤ 2 ^ 64) : Is (A + B) (a + b) (x + y) := by
  obtain ⟨f, h1, h2, rfl⟩ := h
  obtain ⟨g, h3, h4, rfl⟩ := h'
  obtain ⟨s, hs, hs', hv⟩ := Fe.add_spec h2 h4 hAB
  refine ⟨s, ?_, hs', by rw [hv, Nat.cast_add]⟩
  exact (bind2 Fe.add h1 h3).trans hs

theorem is_sub {a b : Limb} {x y : EdF} (h : Is (2 ^ 54) a x) (h' : Is (2 ^ 54) b y) : Is (2 ^ 51 + 2 ^ 18) (a - b) (x - y) := by
  obtain ⟨f, h1, h2, rfl⟩ := h
  obtain ⟨g, h3, h4, rfl⟩ := h'
  obtain ⟨s, hs, hs', k, hv⟩ := Fe.sub_spec h2 h4
  refine ⟨s, ?_, hs', ?_⟩
  · exact (bind2 Fe.sub h1 h3).trans hs
  · rw [← edP] at hv
    exact cast_sub hv

theorem is_neg {a : Limb} {x : EdF} (h : Is (2 ^ 54) a x) : Is (2 ^ 51 + 2 ^ 18) (-a) (-x) := by
  obtain ⟨f, h1, h2, rfl⟩ := h
  obtain ⟨s, hs, hs', k, hv⟩ := Fe.neg_spec h2
  refine ⟨s, ?_, hs', ?_⟩
  · exact (bind1 Fe.neg h1).trans hs
  · rw [← edP] at hv
    exact cast_neg hv

theorem is_mul {a b : Limb} {x y : EdF} (h : Is (2 ^ 54) a x) (h' : Is (2 ^ 54) b y) : Is (2 ^ 51 + 2 ^ 13) (a * b) (x * y) := by
  obtain ⟨f, h1, h2, rfl⟩ := h
  obtain ⟨g, h3, h4, rfl⟩ := h'
  obtain ⟨s, hs, hs', k, l, hv⟩ := Fe.mul_spec h2 h4
  refine ⟨s, ?_, hs', ?_⟩
  · exact (bind2 Fe.mul h1 h3).trans hs
  · have := congrArg (Nat.cast : ℕ → EdF) hv
    rw [Nat.cast_mul, Nat.cast_add, cast_p, add_zero, Nat.cast_add, cast_p, add_zero] at this
    exact this.symm

theorem is_pow2k {a : Limb} {x : EdF} (k : ℕ) (hk : 0 < k) (h : Is (2 ^ 54) a x) : Is (2 ^ 51 + 2 ^ 13) (FE.pow2k k a) (x ^ 2 ^ k) := by
  obtain ⟨f, h1, h2, h3⟩ := h
  obtain ⟨s, hs, hs'⟩ := Fe.pow2k_rel k hk h2 h3
  refine ⟨s, ?_, hs'⟩
  exact (bind1 (Fe.pow2k k) h1).trans hs

theorem is_sq2 {a : Limb} {x : EdF} (h : Is (2 ^ 54) a x) : Is (2 ^ 53) (FE.sq2 a) (2 * (x * x)) := by
  obtain ⟨f, h1, h2, h3⟩ := h
  obtain ⟨s, hs, hs'⟩ := Fe.square2_rel h2 h3
  refine ⟨s, ?_, hs'⟩
  exact (bind1 Fe.square2 h1).trans hs

theorem is_toNat {a : Limb} {x : EdF} (h : Is (2 ^ 64) a x) : FE.toNat a = x.val := by
  obtain ⟨f, h1, h2, rfl⟩ := h
  obtain ⟨s, hs, hs', hv⟩ := Fe.canon_spec h2
  show (match a.get.bind Fe.toBytes with | some b => Codec.leVal b | none => 0) = _
  rw [h1, Option.bind_some, Fe.toBytes, hs]
  show Codec.leVal (s.pack.map UInt8.ofNat) = _
  rw [Fe.pack_spec hs', hv, ZMod.val_natCast, edP]

theorem tight {f : Fe} (x : EdF) (h : f.Lt (2 ^ 51)) (hv : (f.val : EdF) = x) : Is (2 ^ 52) ⟨some f⟩ x :=
  ⟨f, rfl, h.mono (by norm_num), hv⟩

theorem is_d : (Fe.val ⟨929955233495203, 466365720129213, 1662059464998953, 2033849074728123, 1442794654840575⟩ : EdF) = edD := by
  have h2 : (121666 : EdF) ≠ 0 := by
    have : ((121666 : ℕ) : EdF) ≠ 0 := by
      rw [Ne, ZMod.natCast_eq_zero_iff]
      decide +kernel
    exact_mod_cast this
  rw [edD, eq_div_iff h2]
  have : ((Fe.val ⟨929955233495203, 466365720129213, 1662059464998953, 2033849074728123, 1442794654840575⟩ * 121666 + 121665 : ℕ) : EdF) = 0 := by
    rw [ZMod.natCast_eq_zero_iff]
    decide +kernel
  rw [Nat.cast_add, Nat.cast_mul] at this
  exact_mod_cast eq_neg_of_add_eq_zero_left this

theorem is_d2 : (Fe.val ⟨1859910466990425, 932731440258426, 1072319116312658, 1815898335770999, 633789495995903⟩ : EdF) = 2 * edD := by
  rw [← is_d, ← Nat.cast_two, ← Nat.cast_mul, ZMod.natCast_eq_natCast_iff']
  decide +kernel

theorem cast_eq {m n : ℕ} (h : m = n) : (m : EdF) = (n : EdF) := by rw [h]

/-- Limbs represent field elements. -/
instance : Rel Limb where
  T := Is (2 ^ 52)
  M := Is (2 ^ 53)
  L := Is (2 ^ 54)
  tm h := h.mono (by norm_num)
  ml h := h.mono (by norm_num)
  zero := tight 0 (by unfold Fe.Lt; decide +kernel) Nat.cast_zero
  one := tight 1 (by unfold Fe.Lt; decide +kernel) Nat.cast_one
  d := tight _ (by unfold Fe.Lt; decide +kernel) is_d
  d2 := tight _ (by unfold Fe.Lt; decide +kernel) is_d2
  sqrtM1 := tight _ (by unfold Fe.Lt; decide +kernel) (cast_eq (by decide +kernel))
  baseX := tight _ (by unfold Fe.Lt; decide +kernel) (cast_eq (by decide +kernel))
  baseY := tight _ (by unfold Fe.Lt; decide +kernel) (cast_eq (by decide +kernel))
  baseT := tight _ (by unfold Fe.Lt; decide +kernel) (cast_eq (by decide +kernel))
  ofNat n := tight _ (Fe.ofNat_spec n).1 (by rw [(Fe.ofNat_spec n).2, ofNat_eq])
  toNat h := by rw [is_toNat (h.mono (by norm_num)), toNat_eq]
  add h h' := (is_add h h' (by norm_num)).mono (by norm_num)
  add' h h' := (is_add h h' (by norm_num)).mono (by norm_num)
  sub h h' := (is_sub h h').mono (by norm_num)
  neg h := (is_neg h).mono (by norm_num)
  mul h h' := (is_mul h h').mono (by norm_num)
  sq h := by
    rw [sq_eq, ← pow_two]
    exact (is_pow2k 1 one_pos h).mono (by norm_num)
  sq2 h := by
    rw [sq2_eq]
    exact (is_sq2 h).mono (by norm_num)
  pow2k k hk h := by
    rw [pow2k_eq]
    exact (is_pow2k k hk h).mono (by norm_num)

end Limb

end Verif.EdProj
