import Verif.Props.EdVector

/-!
# Secret scalars of EdDSA: C115

The answers of RFC 8032, TEST 3, do not show that the three lowest bits are cleared: those bits of the hash are zero there.
-/

namespace Verif

/-- Clearing and setting bits of the first and of the last byte, as RFC 8032, 5.1.5, step 2 says. -/
def Spec.pruned : List UInt8 → List UInt8
  | [] => []
  | a :: l => (a &&& 248) :: l.dropLast ++ [(l.getLastD 0 &&& 63) ||| 64]

private theorem low_byte (a : UInt8) : (a &&& 248).toNat = a.toNat / 8 * 8 := by
  have h : ∀ n : Fin 256, (UInt8.ofNat n.1 &&& 248).toNat = n.1 / 8 * 8 := by decide +kernel
  simpa using h ⟨a.toNat, a.toNat_lt⟩

private theorem high_byte (a : UInt8) : ((a &&& 63) ||| 64).toNat = 64 + a.toNat % 64 := by
  have h : ∀ n : Fin 256, ((UInt8.ofNat n.1 &&& 63) ||| 64).toNat = 64 + n.1 % 64 := by decide +kernel
  simpa using h ⟨a.toNat, a.toNat_lt⟩

private theorem leVal_snoc (l : List UInt8) (z : UInt8) : Codec.leVal (l ++ [z]) = Codec.leVal l + 256 ^ l.length * z.toNat := by
  induction l with
  | nil => simp [Codec.leVal]
  | cons a l ih => simp only [List.cons_append, Codec.leVal, ih, List.length_cons]; ring

theorem clamp_bytes (a z : UInt8) (m : List UInt8) (hm : m.length = 30) :
    EdCurve.clamp (Codec.leVal (a :: (m ++ [z]))) = Codec.leVal ((a &&& 248) :: m ++ [(z &&& 63) ||| 64]) := by
  have hb := Codec.leVal_lt m
  have ha := a.toNat_lt
  have hz := z.toNat_lt
  simp only [List.cons_append, Codec.leVal, leVal_snoc, low_byte, high_byte, hm, EdCurve.clamp] at *
  norm_num at *
  omega

/-- **C115** (secret scalars). For every seed the secret scalar is the number of the pruned first half of the hash; it is a multiple of 8
between `2^254` and `2^255`. -/
theorem C115_clamp {E : Type} [AddCommGroup E] [DecidableEq E] (C : EdCurve E) (seed : List UInt8) :
    C.scalarOf seed = Codec.leVal (Spec.pruned ((C.sha512 seed).1.take 32)) ∧
    8 ∣ C.scalarOf seed ∧ 2 ^ 254 ≤ C.scalarOf seed ∧ C.scalarOf seed < 2 ^ 255 := by
  have key : ∀ l : List UInt8, l.length = 32 → EdCurve.clamp (Codec.leVal l) = Codec.leVal (Spec.pruned l) := by
    intro l hl
    match l, hl with
    | a :: t, hl =>
      have ht : t ≠ [] := by rintro rfl; simp at hl
      obtain ⟨m, z, rfl⟩ : ∃ m z, t = m ++ [z] := ⟨t.dropLast, t.getLast ht, (List.dropLast_append_getLast ht).symm⟩
      simp only [List.length_cons, List.length_append, List.length_nil] at hl
      rw [clamp_bytes a z m (by omega)]
      simp [Spec.pruned]
  refine ⟨key _ (by simp [(C.sha512 seed).2]), ?_, ?_, ?_⟩ <;> simp only [EdCurve.scalarOf, EdCurve.clamp] <;> norm_num <;> omega

/-- A first half of ones: the bits are cleared and set. -/
example : Spec.pruned (List.replicate 32 255) = 248 :: List.replicate 30 255 ++ [127] ∧
    EdCurve.clamp (Codec.leVal (List.replicate 32 255)) = 2 ^ 255 - 8 := by decide +kernel

end Verif
