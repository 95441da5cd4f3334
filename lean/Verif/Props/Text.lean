import Mathlib.Algebra.BigOperators.Intervals
import Verif.Lemmas.Base64

/-!
# Base64 text: C77

The text form of keys, signatures and digests is the base64 encoding of RFC 4648, section 4. The specification works on the
bit string, not on groups of three bytes.
-/

open Finset

namespace Verif

/-- Bit `k` of a byte string, most significant bit of each byte first; zero bits follow the end of the string. -/
def Spec.bit (l : List UInt8) (k : ℕ) : Bool :=
  match l[k / 8]? with
  | some b => b.toNat.testBit (7 - k % 8)
  | none => false

/-- The `j`-th group of six bits, as a number. -/
def Spec.sextet (l : List UInt8) (j : ℕ) : ℕ := ∑ i ∈ range 6, (Spec.bit l (6 * j + i)).toNat * 2 ^ (5 - i)

/-- RFC 4648, table 1. -/
def Spec.alphabet : List UInt8 := ascii "ABCDEFGHIJKLMNOPQRSTUVWXYZabcdefghijklmnopqrstuvwxyz0123456789+/"

/-- RFC 4648, section 4: one symbol for every group of six bits that is at least begun, then `=` up to a multiple of four. -/
def Spec.base64 (l : List UInt8) : List UInt8 :=
  ((List.range ((8 * l.length + 5) / 6)).map fun j => Spec.alphabet.getD (Spec.sextet l j) 0) ++
    List.replicate ((3 - l.length % 3) % 3) 61

theorem Spec.alphabet_length : Spec.alphabet.length = 64 := by decide

theorem Spec.sextet_lt (l : List UInt8) (j : ℕ) : Spec.sextet l j < 64 := by
  have : Spec.sextet l j ≤ ∑ i ∈ range 6, 2 ^ (5 - i) := by
    refine sum_le_sum fun i _ => ?_
    calc (Spec.bit l (6 * j + i)).toNat * 2 ^ (5 - i) ≤ 1 * 2 ^ (5 - i) := Nat.mul_le_mul_right _ (Bool.toNat_le _)
      _ = _ := one_mul _
  have e : ∑ i ∈ range 6, 2 ^ (5 - i) = 63 := by decide
  omega

/-- The alphabet of the model is the table. -/
theorem sym_eq : ∀ n < 64, Base64.sym n = Spec.alphabet.getD n 0 := by decide

theorem Spec.bit_shift (a b c : UInt8) (l : List UInt8) (k : ℕ) : Spec.bit (a :: b :: c :: l) (k + 24) = Spec.bit l k := by
  unfold Spec.bit
  have h1 : (k + 24) / 8 = k / 8 + 1 + 1 + 1 := by omega
  have h2 : (k + 24) % 8 = k % 8 := by omega
  rw [h1, h2]
  simp only [List.getElem?_cons_succ]

theorem Spec.sextet_shift (a b c : UInt8) (l : List UInt8) (j : ℕ) :
    Spec.sextet (a :: b :: c :: l) (j + 4) = Spec.sextet l j := by
  unfold Spec.sextet
  refine sum_congr rfl fun i _ => ?_
  have : 6 * (j + 4) + i = 6 * j + i + 24 := by omega
  rw [this, Spec.bit_shift]

/-- The first six bits of a byte. -/
private theorem hi6 : ∀ a < 256, (Nat.testBit a 7).toNat * 2 ^ 5 + (Nat.testBit a 6).toNat * 2 ^ 4 + (Nat.testBit a 5).toNat * 2 ^ 3 +
    (Nat.testBit a 4).toNat * 2 ^ 2 + (Nat.testBit a 3).toNat * 2 ^ 1 + (Nat.testBit a 2).toNat * 2 ^ 0 = a / 4 := by decide +kernel

private theorem lo2 : ∀ a < 256, (Nat.testBit a 1).toNat * 2 ^ 5 + (Nat.testBit a 0).toNat * 2 ^ 4 = a % 4 * 16 := by decide +kernel

private theorem hi4 : ∀ a < 256, (Nat.testBit a 7).toNat * 2 ^ 3 + (Nat.testBit a 6).toNat * 2 ^ 2 + (Nat.testBit a 5).toNat * 2 ^ 1 +
    (Nat.testBit a 4).toNat * 2 ^ 0 = a / 16 := by decide +kernel

private theorem lo4 : ∀ a < 256, (Nat.testBit a 3).toNat * 2 ^ 5 + (Nat.testBit a 2).toNat * 2 ^ 4 + (Nat.testBit a 1).toNat * 2 ^ 3 +
    (Nat.testBit a 0).toNat * 2 ^ 2 = a % 16 * 4 := by decide +kernel

private theorem hi2 : ∀ a < 256, (Nat.testBit a 7).toNat * 2 ^ 1 + (Nat.testBit a 6).toNat * 2 ^ 0 = a / 64 := by decide +kernel

private theorem lo6 : ∀ a < 256, (Nat.testBit a 5).toNat * 2 ^ 5 + (Nat.testBit a 4).toNat * 2 ^ 4 + (Nat.testBit a 3).toNat * 2 ^ 3 +
    (Nat.testBit a 2).toNat * 2 ^ 2 + (Nat.testBit a 1).toNat * 2 ^ 1 + (Nat.testBit a 0).toNat * 2 ^ 0 = a % 64 := by decide +kernel

theorem Spec.sextet_zero (a : UInt8) (l : List UInt8) : Spec.sextet (a :: l) 0 = a.toNat / 4 := by
  rw [← hi6 _ (UInt8.toNat_lt a)]
  simp [Spec.sextet, Spec.bit, sum_range_succ]

theorem Spec.sextet_one_single (a : UInt8) : Spec.sextet [a] 1 = a.toNat % 4 * 16 := by
  rw [← lo2 _ (UInt8.toNat_lt a)]
  simp [Spec.sextet, Spec.bit, sum_range_succ]

theorem Spec.sextet_one (a b : UInt8) (l : List UInt8) : Spec.sextet (a :: b :: l) 1 = a.toNat % 4 * 16 + b.toNat / 16 := by
  rw [← lo2 _ (UInt8.toNat_lt a), ← hi4 _ (UInt8.toNat_lt b)]
  simp [Spec.sextet, Spec.bit, sum_range_succ]
  omega

theorem Spec.sextet_two_single (a b : UInt8) : Spec.sextet [a, b] 2 = b.toNat % 16 * 4 := by
  rw [← lo4 _ (UInt8.toNat_lt b)]
  simp [Spec.sextet, Spec.bit, sum_range_succ]

theorem Spec.sextet_two (a b c : UInt8) (l : List UInt8) :
    Spec.sextet (a :: b :: c :: l) 2 = b.toNat % 16 * 4 + c.toNat / 64 := by
  rw [← lo4 _ (UInt8.toNat_lt b), ← hi2 _ (UInt8.toNat_lt c)]
  simp [Spec.sextet, Spec.bit, sum_range_succ]
  omega

theorem Spec.sextet_three (a b c : UInt8) (l : List UInt8) : Spec.sextet (a :: b :: c :: l) 3 = c.toNat % 64 := by
  rw [← lo6 _ (UInt8.toNat_lt c)]
  simp [Spec.sextet, Spec.bit, sum_range_succ]

theorem sextets_eq (l : List UInt8) : Base64.sextets l = (List.range ((8 * l.length + 5) / 6)).map (Spec.sextet l) := by
  fun_induction Base64.sextets l with
  | case1 => rfl
  | case2 a =>
    have e : (8 * [a].length + 5) / 6 = 2 := by simp
    rw [e]
    simp [List.range_succ, Spec.sextet_zero, Spec.sextet_one_single]
  | case3 a b =>
    have e : (8 * [a, b].length + 5) / 6 = 3 := by simp
    rw [e]
    simp [List.range_succ, Spec.sextet_zero, Spec.sextet_one, Spec.sextet_two_single]
  | case4 a b c l ih =>
    have e : (8 * (a :: b :: c :: l).length + 5) / 6 = 4 + (8 * l.length + 5) / 6 := by
      simp only [List.length_cons]; omega
    rw [e, List.range_add, List.map_append, List.map_map, ih]
    have h4 : (List.range 4).map (Spec.sextet (a :: b :: c :: l)) =
        [a.toNat / 4, a.toNat % 4 * 16 + b.toNat / 16, b.toNat % 16 * 4 + c.toNat / 64, c.toNat % 64] := by
      simp [List.range_succ, Spec.sextet_zero, Spec.sextet_one, Spec.sextet_two, Spec.sextet_three]
    rw [h4]
    simp only [List.cons_append, List.nil_append, List.cons.injEq, true_and]
    refine List.map_congr_left fun j _ => ?_
    rw [Function.comp, Nat.add_comm 4 j, Spec.sextet_shift]

/-- **C77** (encoding). `base64::encode` computes the RFC 4648 text of every byte string. -/
theorem C77_encode (l : List UInt8) : Base64.encode l = Spec.base64 l := by
  rw [Base64.encode_eq, sextets_eq, List.map_map, Spec.base64]
  congr 1
  refine List.map_congr_left fun j _ => ?_
  exact sym_eq _ (Spec.sextet_lt l j)

/-- **C77** (positions). The same position by position: length, symbols and padding. -/
theorem C77_positions (l : List UInt8) :
    (Base64.encode l).length = (l.length + 2) / 3 * 4 ∧
    (∀ j, 6 * j < 8 * l.length → (Base64.encode l)[j]? = Spec.alphabet[Spec.sextet l j]? ∧ Spec.sextet l j < 64) ∧
    (∀ j, 8 * l.length ≤ 6 * j → j < (l.length + 2) / 3 * 4 → (Base64.encode l)[j]? = some 61) := by
  refine ⟨Base64.length_encode l, fun j hj => ⟨?_, Spec.sextet_lt l j⟩, fun j hj hj' => ?_⟩
  · rw [C77_encode, Spec.base64, List.getElem?_append_left (by simp; omega)]
    have h := Spec.sextet_lt l j
    rw [List.getElem?_map, List.getElem?_range (by omega), Option.map_some, List.getD_eq_getElem?_getD,
      List.getElem?_eq_getElem (by rw [Spec.alphabet_length]; exact h), Option.getD_some]
  · rw [C77_encode, Spec.base64, List.getElem?_append_right (by simp; omega), List.getElem?_replicate, if_pos]
    simp only [List.length_map, List.length_range]
    rcases (by omega : l.length % 3 = 0 ∨ l.length % 3 = 1 ∨ l.length % 3 = 2) with h | h | h <;> rw [h] <;> omega

/-- **C77** (decoding). `base64::decode` returns `b` exactly for the RFC 4648 text of `b` from which `=` symbols may be
missing at the end. -/
theorem C77_decode (s b : List UInt8) :
    Base64.decode s = some b ↔ ∃ j, s ++ List.replicate j 61 = Spec.base64 b := by
  rw [← C77_encode]
  exact Base64.decode_eq_some_iff s b

/-- **C77** (where it is used). Keys and signatures are shown as the text of their bytes, 44 symbols for a public key or a
digest, 88 for a secret key or a signature, and `Display` shows the first 16 symbols, that is the first twelve bytes. -/
theorem C77_texts {ε : Type} :
    (∀ k : PublicKey, k.toBase64 = Spec.base64 k.bytes.1 ∧ k.toBase64.length = 44 ∧ k.debug = k.toBase64 ∧
      (k.display : Res ε _) = .ok (Spec.base64 (k.bytes.1.take 12))) ∧
    (∀ k : SecretKey, k.toBase64 = Spec.base64 k.bytes.1 ∧ k.toBase64.length = 88 ∧ k.debug = k.toBase64) ∧
    (∀ s : Signature, s.toBase64 = Spec.base64 (s.part1.1 ++ s.part2.1) ∧ s.toBase64.length = 88) ∧
    (∀ d : Digest, d.debug = Spec.base64 d.bytes.1 ∧ d.debug.length = 44 ∧
      (d.display : Res ε _) = .ok (Spec.base64 (d.bytes.1.take 12))) := by
  have h16 : ∀ b : Bytes 32, (first16 (Base64.encode b.1) : Res ε _) = .ok (Spec.base64 (b.1.take 12)) := fun b => by
    unfold first16
    rw [if_pos (by rw [Base64.length_encode, b.2]; decide), ← C77_encode]
    exact congrArg _ (Base64.take_encode 4 b.1 (by rw [b.2]; decide))
  refine ⟨fun k => ⟨C77_encode _, ?_, rfl, h16 k.bytes⟩, fun k => ⟨C77_encode _, ?_, rfl⟩,
    fun s => ⟨C77_encode _, ?_⟩, fun d => ⟨C77_encode _, ?_, h16 d.bytes⟩⟩
  · exact (Base64.length_encode _).trans (by rw [k.bytes.2])
  · exact (Base64.length_encode _).trans (by rw [k.bytes.2])
  · exact (Base64.length_encode _).trans (by rw [s.flatten.2])
  · exact (Base64.length_encode _).trans (by rw [d.bytes.2])

/-- Non-vacuity of C77: the specification on RFC 4648 test vectors (section 10) and on the two symbols that tell the standard
alphabet from the URL-safe one. -/
example : Spec.base64 (ascii "f") = ascii "Zg==" ∧ Spec.base64 (ascii "fo") = ascii "Zm8=" ∧
    Spec.base64 (ascii "foobar") = ascii "Zm9vYmFy" ∧ Spec.base64 [251, 255] = ascii "+/8=" ∧
    Base64.decode (ascii "Zm8") = some (ascii "fo") ∧ Base64.decode (ascii "Zm9=") = none := by decide +kernel

end Verif
