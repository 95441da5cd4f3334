import Verif.Model.EdDSA
import Verif.Lemmas.Codec
import Mathlib.Algebra.Group.Basic

/-!
# `ed25519_dalek` 1.0.1 over an abstract curve group

The functions behind `EdOps` as the crate computes them (/repo/Cargo.toml: `ed25519-dalek = "1.0.1"` with the feature `batch`),
from its published source.  The group of curve points, point compression and SHA-512 stay abstract.  Scalars are natural
numbers; the bit masks of key clamping are written as arithmetic.
-/

namespace Verif

/-- Order of the base point (`BASEPOINT_ORDER`). -/
def edL : ℕ := 2 ^ 252 + 27742317777372353535851937790883648493

/-- Curve points with compression, base point, and SHA-512. -/
structure EdCurve (E : Type) where
  base : E
  compress : E → Bytes 32
  /-- `CompressedEdwardsY::decompress` -/
  decompress : Bytes 32 → Option E
  sha512 : List UInt8 → Bytes 64

/-- What is assumed of them. -/
structure EdCurve.Laws {E : Type} [AddCommGroup E] (C : EdCurve E) : Prop where
  order : edL • C.base = 0
  base_ne : C.base ≠ 0
  round : ∀ P, C.decompress (C.compress P) = some P

namespace EdCurve

variable {E : Type} [AddCommGroup E] [DecidableEq E] (C : EdCurve E)

/-- `Scalar::from_hash`: 64 bytes, reduced. -/
def wide (h : Bytes 64) : ℕ := Codec.leVal h.1 % edL

/-- `lower[0] &= 248; lower[31] &= 63; lower[31] |= 64`. -/
def clamp (v : ℕ) : ℕ := 2 ^ 254 + v % 2 ^ 254 / 8 * 8

/-- First half of the expanded secret key. -/
def scalarOf (seed : List UInt8) : ℕ := clamp (Codec.leVal ((C.sha512 seed).1.take 32))

/-- The signer's `r`: hash of the second half of the expanded secret key and the message. -/
def nonce (seed msg : List UInt8) : ℕ := wide (C.sha512 ((C.sha512 seed).1.drop 32 ++ msg))

/-- The challenge `k`, the hash of `R`, `A` and the message. -/
def challenge (R A msg : List UInt8) : ℕ := wide (C.sha512 (R ++ (A ++ msg)))

/-- First and second half of 64 bytes. -/
def fst32 (b : Bytes 64) : Bytes 32 := ⟨b.1.take 32, by simp [b.2]⟩
def snd32 (b : Bytes 64) : Bytes 32 := ⟨b.1.drop 32, by simp [b.2]⟩

/-- The scalar `s` of a signature, as a number; `check_scalar` accepts only `s < edL`. -/
def sOf (sig : Bytes 64) : ℕ := Codec.leVal (snd32 sig).1

/-- `is_small_order`. -/
def smallOrder (P : E) : Bool := decide (8 • P = 0)

/-- `PublicKey::verify_strict` after parsing of the key. -/
def strict (pk : Bytes 32) (msg : List UInt8) (sig : Bytes 64) : Bool :=
  if sOf sig < edL then
    match C.decompress (fst32 sig), C.decompress pk with
    | some R, some A =>
      if smallOrder R || smallOrder A then false
      else decide (sOf sig • C.base - C.challenge (fst32 sig).1 pk.1 msg • A = R)
    | _, _ => false
  else false

/-- One vote in a batch: message, signature, key. -/
abbrev Vote := List UInt8 × Bytes 64 × Bytes 32

/-- The contribution of one vote to the multi-scalar product of `verify_batch`, with weight `z`; `none` if `R` does not decompress.
(The coefficient of the base point is summed up before it is multiplied; as the base point has order `edL` this is the same.) -/
def batchTerm (z : ℕ) (v : Vote) : Option E :=
  match C.decompress (fst32 v.2.1), C.decompress v.2.2 with
  | some R, some A =>
    some (z • R + (C.challenge (fst32 v.2.1).1 v.2.2.1 v.1 * z % edL) • A - (z * sOf v.2.1 % edL) • C.base)
  | _, _ => none

/-- The multi-scalar product. -/
def batchSum (z : ℕ → ℕ) : ℕ → List Vote → Option E
  | _, [] => some 0
  | i, v :: vs => do
    let P ← C.batchTerm (z i) v
    let Q ← batchSum z (i + 1) vs
    some (P + Q)

/-- `verify_batch` with the weights `z`. -/
def batch (z : ℕ → ℕ) (ms : List (List UInt8)) (ss : List (Bytes 64)) (ks : List (Bytes 32)) : Bool :=
  if ss.length = ms.length ∧ ss.length = ks.length then
    if ss.all fun s => decide (sOf s < edL) then decide (C.batchSum z 0 (ms.zip (ss.zip ks)) = some 0)
    else false
  else false

/-- The functions used by lib.rs; `zs` are the 128-bit weights of `verify_batch`, drawn from a generator that is seeded with
the batch. -/
def ops (zs : List (List UInt8) → List (Bytes 64) → List (Bytes 32) → ℕ → ℕ) : EdOps where
  derivePk seed := C.compress (C.scalarOf seed.1 • C.base)
  keypairOk b := (C.decompress (snd32 b)).isSome
  sign b msg :=
    let seed := (fst32 b).1
    let pk := snd32 b
    let r := C.nonce seed msg
    let R := C.compress (r • C.base)
    let s := (C.challenge R.1 pk.1 msg * C.scalarOf seed + r) % edL
    Bytes.append32 R ⟨Codec.leBytes 32 s, Codec.length_leBytes _ _⟩
  sigOk b := decide (sOf b < 2 ^ 253)
  pkOk pk := (C.decompress pk).isSome
  verifyStrict pk msg sig := C.strict pk msg sig
  verifyBatch ms ss ks := C.batch (zs ms ss ks) ms ss ks

end EdCurve

end Verif
