import Verif.Lemmas.Codec
import Mathlib.Tactic.NormNum.Prime

/-!
# A concrete instance

A small model of all external operations, used only in `example`s to show that hypotheses of the property theorems can be
met (all laws of `Model/Laws.lean` hold in it).  Groups are the additive group of `ZMod r`, the pairing is
multiplication.  It is not a secure instance.
-/

namespace Verif

instance fact13 : Fact (Nat.Prime 13) := ⟨by norm_num⟩

end Verif

namespace Verif.Toy

variable (r : ℕ) [Fact r.Prime]

/-- 32-byte little-endian codec for scalars. -/
def frCodec : Codec (ZMod r) where
  enc x := Codec.leBytes 32 x.val
  dec l :=
    if l.length < 32 then .err .ioError
    else if Codec.leVal (l.take 32) < r then .ok ((Codec.leVal (l.take 32) : ZMod r), l.drop 32)
    else .err .invalidData

/-- Generator 1. -/
def curve : Curve (ZMod r) := ⟨1, frCodec r⟩

/-- Checksum-like "hash". -/
def checksum (l : List UInt8) : ℕ := l.foldl (fun s b => (3 * s + b.toNat + 7) % 251) 1

/-- Always-accepting hash environment. -/
def hashEnv : HashEnv r where
  stream p msg i := UInt8.ofNat (checksum (p ++ msg) + i)
  frSize := 1
  frFromRandom bytes := some (Codec.leVal bytes : ZMod r)

/-- First 32 bytes, zero-padded. -/
def pad32 (l : List UInt8) : Bytes 32 :=
  ⟨(l ++ List.replicate 32 0).take 32, by simp⟩

/-- Toy signature scheme: public key = secret seed, signature = seed ++ message prefix. -/
def ed : EdOps where
  derivePk seed := seed
  keypairOk b := decide (b.1.take 32 = b.1.drop 32)
  sign b msg := Bytes.append32 ⟨b.1.take 32, by simp [b.2]⟩ (pad32 msg)
  sigOk _ := true
  pkOk _ := true
  verifyStrict pk msg sig := decide (sig = Bytes.append32 pk (pad32 msg))
  verifyBatch ms ss ks := decide (ss = (ks.zip ms).map fun km => Bytes.append32 km.1 (pad32 km.2))

/-- The suite. -/
def suite : Suite r (ZMod r) (ZMod r) (Multiplicative (ZMod r)) where
  c1 := curve r
  c2 := curve r
  frC := frCodec r
  hash := hashEnv r
  pair P Q := Multiplicative.ofAdd (P * Q)
  shake l := pad32 [UInt8.ofNat (checksum l)]
  ed := ed

theorem pairLaws : PairLaws (suite r) where
  add_left P P' Q := by simp [suite, add_mul]
  add_right P Q Q' := by simp [suite, mul_add]
  zero_left Q := by simp [suite]
  zero_right P := by simp [suite]
  nondeg P Q h := by
    have : P * Q = 0 := by simpa [suite] using h
    exact mul_eq_zero.1 this

theorem cyclic : CyclicGroup r (ZMod r) := by
  intro P Q hP
  exact ⟨Q * P⁻¹, by rw [smul_eq_mul, mul_assoc, inv_mul_cancel₀ hP, mul_one]⟩

theorem edLaws : EdLaws ed where
  keypair_ok seed := by simp [ed, Bytes.append32, seed.2]
  pk_ok seed := rfl
  sig_ok seed msg := rfl
  verifies seed msg := by
    simp only [ed, decide_eq_true_eq]
    congr 1
    apply Subtype.ext
    simp [Bytes.append32, seed.2]

theorem hashTotal : HashTotal (hashEnv r) := fun _ _ => ⟨0, rfl⟩

theorem frCodec_lawful (hr : r < 256 ^ 32) : (frCodec r).Lawful := by
  intro x rest
  have hx : x.val < r := ZMod.val_lt x
  simp only [frCodec]
  rw [if_neg (by simp), List.take_left' (by simp), List.drop_left' (by simp),
    Codec.leVal_leBytes _ _ (by omega), if_pos hx, ZMod.natCast_zmod_val]

theorem codecLaws (hr : r < 256 ^ 32) : CodecLaws (suite r) 32 32 32 where
  c1 := frCodec_lawful r hr
  c2 := frCodec_lawful r hr
  fr := frCodec_lawful r hr
  c1size _ := Codec.length_leBytes _ _
  c2size _ := Codec.length_leBytes _ _
  frsize _ := Codec.length_leBytes _ _

/-- A hash environment whose challenge is always `c`. -/
def constHash (c : ZMod r) : HashEnv r where
  stream _ _ _ := 0
  frSize := 1
  frFromRandom _ := some c

end Verif.Toy
