import Verif.Model.EdDSA

/-!
# Base64 text of keys and signatures, `Display`, `Debug` — /repo/src/lib.rs

`base64::encode` / `base64::decode` of base64 0.13.1 with the `STANDARD` configuration (padding on output,
optional on input, non-zero trailing bits rejected). Strings are their byte lists (all ASCII).
-/

namespace Verif

namespace Base64

/-- Alphabet symbol of a sextet. -/
def sym (n : ℕ) : UInt8 :=
  if n < 26 then UInt8.ofNat (65 + n)
  else if n < 52 then UInt8.ofNat (71 + n)
  else if n < 62 then UInt8.ofNat (n - 4)
  else if n = 62 then 43
  else 47

/-- Sextet of an alphabet symbol. -/
def unsym (b : UInt8) : Option ℕ :=
  let c := b.toNat
  if 65 ≤ c ∧ c ≤ 90 then some (c - 65)
  else if 97 ≤ c ∧ c ≤ 122 then some (c - 71)
  else if 48 ≤ c ∧ c ≤ 57 then some (c + 4)
  else if c = 43 then some 62
  else if c = 47 then some 63
  else none

/-- `'='` -/
def pad : UInt8 := 61

/-- `base64::encode`. -/
def encode : List UInt8 → List UInt8
  | [] => []
  | [a] => [sym (a.toNat / 4), sym (a.toNat % 4 * 16), pad, pad]
  | [a, b] => [sym (a.toNat / 4), sym (a.toNat % 4 * 16 + b.toNat / 16), sym (b.toNat % 16 * 4), pad]
  | a :: b :: c :: l =>
    sym (a.toNat / 4) :: sym (a.toNat % 4 * 16 + b.toNat / 16) ::
      sym (b.toNat % 16 * 4 + c.toNat / 64) :: sym (c.toNat % 64) :: encode l

/-- Sextets to bytes; a lone sextet or non-zero trailing bits are refused. -/
def joinSextets : List ℕ → Option (List UInt8)
  | [] => some []
  | [_] => none
  | [a, b] => if b % 16 = 0 then some [UInt8.ofNat (a * 4 + b / 16)] else none
  | [a, b, c] =>
    if c % 4 = 0 then some [UInt8.ofNat (a * 4 + b / 16), UInt8.ofNat (b % 16 * 16 + c / 4)] else none
  | a :: b :: c :: d :: l =>
    (joinSextets l).map fun t =>
      UInt8.ofNat (a * 4 + b / 16) :: UInt8.ofNat (b % 16 * 16 + c / 4) :: UInt8.ofNat (c % 4 * 64 + d) :: t

/-- `base64::decode` (`None` = any `DecodeError`). The symbols before the first `=` are the body; what follows
must be only `=`, start at position 2 or 3 of a quad and not leave that quad; the total length is not `1 mod 4`. -/
def decode (s : List UInt8) : Option (List UInt8) :=
  let body := s.takeWhile (· ≠ pad)
  let tail := s.dropWhile (· ≠ pad)
  if s.length % 4 = 1 then none
  else if tail.any (· ≠ pad) then none
  else if tail ≠ [] ∧ (body.length % 4 < 2 ∨ 4 < body.length % 4 + tail.length) then none
  else (body.mapM unsym).bind joinSextets

end Base64

/-- `base64::DecodeError`, variants collapsed. -/
inductive DecodeError where
  | decodeError
deriving DecidableEq, Repr

/-- `bytes[..n].try_into()`: panics when fewer than `n` bytes were decoded, ignores surplus bytes.
lib.rs:130-135, 194-199 -/
def takeArray (n : ℕ) (bytes : List UInt8) : Res DecodeError (Bytes n) :=
  if h : n ≤ bytes.length then .ok ⟨bytes.take n, by simp [h]⟩ else .panic

/-- `PublicKey::to_base64`. lib.rs:125-127 -/
def PublicKey.toBase64 (k : PublicKey) : List UInt8 := Base64.encode k.bytes.1

/-- `PublicKey::from_base64`. lib.rs:129-136 -/
def PublicKey.fromBase64 (s : List UInt8) : Res DecodeError PublicKey := do
  let bytes ← Res.ofOption (Base64.decode s) .decodeError
  let arr ← takeArray 32 bytes
  .ok ⟨arr⟩

/-- `SecretKey::to_base64`. lib.rs:189-191 -/
def SecretKey.toBase64 (k : SecretKey) : List UInt8 := Base64.encode k.bytes.1

/-- `SecretKey::from_base64`. lib.rs:193-200 -/
def SecretKey.fromBase64 (s : List UInt8) : Res DecodeError SecretKey := do
  let bytes ← Res.ofOption (Base64.decode s) .decodeError
  let arr ← takeArray 64 bytes
  .ok ⟨arr⟩

/-- `Signature::to_base64`. lib.rs:309-311 -/
def Signature.toBase64 (s : Signature) : List UInt8 := Base64.encode s.flatten.1

/-- `s.get(0..16).unwrap()`. lib.rs:67, 179 -/
def first16 {ε : Type} (s : List UInt8) : Res ε (List UInt8) := if 16 ≤ s.length then .ok (s.take 16) else .panic

/-- `Display for Digest`. lib.rs:65-69 -/
def Digest.display {ε : Type} (d : Digest) : Res ε (List UInt8) := first16 (Base64.encode d.bytes.1)

/-- `Debug for Digest`. lib.rs:59-63 -/
def Digest.debug (d : Digest) : List UInt8 := Base64.encode d.bytes.1

/-- `Display for PublicKey`. lib.rs:177-181 -/
def PublicKey.display {ε : Type} (k : PublicKey) : Res ε (List UInt8) := first16 k.toBase64

/-- `Debug for PublicKey`. lib.rs:171-175 -/
def PublicKey.debug (k : PublicKey) : List UInt8 := k.toBase64

/-- `Debug for SecretKey` — prints the whole secret key. lib.rs:209-213 -/
def SecretKey.debug (k : SecretKey) : List UInt8 := k.toBase64

/-- `Drop for SecretKey`: the bytes left in memory. lib.rs:203-207 -/
def SecretKey.dropped (k : SecretKey) : List UInt8 := k.bytes.1.map fun _ => 0

end Verif
