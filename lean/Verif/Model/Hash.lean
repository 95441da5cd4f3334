import Verif.Model.Basic

/-!
# Hash-to-field and hash-to-group

/repo/src/nizk/utils/hash.rs and /repo/src/signature/utils/hash.rs (identical up to the error type,
whose variants are never produced).
-/

namespace Verif

/-- External functions behind `hash_to_field`. -/
structure HashEnv (r : ℕ) where
  /-- successive values of `rng.gen::<u8>()` of the ChaCha generator seeded with the BLAKE2s digest of the
  message under the 8-byte personalisation block (hash.rs:8-18) -/
  stream : List UInt8 → List UInt8 → ℕ → UInt8
  /-- `F::zero().serialized_size()` -/
  frSize : ℕ
  /-- `F::from_random_bytes` -/
  frFromRandom : List UInt8 → Option (ZMod r)

/-- BLAKE2s parameter block: the personalisation is zero-padded to 8 bytes. hash.rs:9-11 -/
def padPersona (p : List UInt8) : List UInt8 := p ++ List.replicate (8 - p.length) 0

/-- The `k`-th block of `size` generated bytes. hash.rs:26-28, 44-46 -/
def block (s : ℕ → UInt8) (size k : ℕ) : List UInt8 := (List.range size).map fun j => s (k * size + j)

open Classical in
/-- `loop { if let Some(x) = f(next) { return Ok(x) } }`: value of the first acceptable attempt, or an
endless loop. -/
noncomputable def firstSome {ε α : Type} (f : ℕ → Option α) : Res ε α :=
  if h : ∃ k, (f k).isSome then .ok ((f (Nat.find h)).get (Nat.find_spec h)) else .diverge

/-- `hash_to_field`. nizk/utils/hash.rs:38-51, signature/utils/hash.rs:38-51.
`Params::personal` panics on more than 8 bytes. -/
noncomputable def hashToField {ε : Type} {r : ℕ} (env : HashEnv r) (persona msg : List UInt8) :
    Res ε (ZMod r) :=
  if 8 < persona.length then .panic
  else
    let s := env.stream (padPersona persona) msg
    firstSome fun k => env.frFromRandom (block s env.frSize k)

/-- A full curve group (not only the prime-order subgroup), for `hash_to_group`. -/
structure RawCurve (E : Type) where
  /-- `C::zero().serialized_size()` -/
  size : ℕ
  /-- `C::from_random_bytes` -/
  fromRandom : List UInt8 → Option E
  /-- the cofactor -/
  cofactor : ℕ

/-- `hash_to_group`. nizk/utils/hash.rs:20-36, signature/utils/hash.rs:20-36. -/
noncomputable def hashToGroup {ε : Type} {r : ℕ} {E : Type} [AddCommGroup E] [DecidableEq E]
    (env : HashEnv r) (C : RawCurve E) (persona msg : List UInt8) : Res ε E :=
  if 8 < persona.length then .panic
  else
    let s := env.stream (padPersona persona) msg
    firstSome fun k =>
      match C.fromRandom (block s C.size k) with
      | some p => if C.cofactor • p = 0 then none else some (C.cofactor • p)
      | none => none

end Verif
