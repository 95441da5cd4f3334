import Verif.Model.Codec

/-!
# EdDSA wrapper types — /repo/src/lib.rs

`Digest`, `PublicKey`, `SecretKey`, `Signature`, over an abstract `ed25519_dalek`.
-/

namespace Verif

/-- The functions of `ed25519_dalek` 1.0.1 used by lib.rs, on raw bytes. -/
structure EdOps where
  /-- public key of a 32-byte secret key -/
  derivePk : Bytes 32 → Bytes 32
  /-- `Keypair::from_bytes` succeeds on these 64 bytes -/
  keypairOk : Bytes 64 → Bool
  /-- `Keypair::sign` (on accepted key-pair bytes) -/
  sign : Bytes 64 → List UInt8 → Bytes 64
  /-- `Signature::from_bytes` succeeds -/
  sigOk : Bytes 64 → Bool
  /-- `PublicKey::from_bytes` succeeds -/
  pkOk : Bytes 32 → Bool
  /-- `PublicKey::verify_strict` returns `Ok` -/
  verifyStrict : Bytes 32 → List UInt8 → Bytes 64 → Bool
  /-- `dalek::verify_batch(messages, signatures, keys)` returns `Ok` -/
  verifyBatch : List (List UInt8) → List (Bytes 64) → List (Bytes 32) → Bool

/-- `CryptoError` (= `ed25519::Error`, opaque). lib.rs:43 -/
inductive CryptoError where
  | signatureError
deriving DecidableEq, Repr

/-- Concatenate two 32-byte arrays. -/
def Bytes.append32 (a b : Bytes 32) : Bytes 64 := ⟨a.1 ++ b.1, by simp [a.2, b.2]⟩

/-- `Digest([u8; 32])`. lib.rs:46-47 -/
structure Digest where
  bytes : Bytes 32
deriving DecidableEq

/-- `PublicKey([u8; 32])`. lib.rs:121-122 -/
structure PublicKey where
  bytes : Bytes 32
deriving DecidableEq

/-- `SecretKey([u8; 64])`. lib.rs:185-186 -/
structure SecretKey where
  bytes : Bytes 64
deriving DecidableEq

/-- `Signature { part1, part2 }`. lib.rs:263-267 -/
structure Signature where
  part1 : Bytes 32
  part2 : Bytes 32
deriving DecidableEq

/-- `Digest::to_vec`. lib.rs:50-52 -/
def Digest.toVec (d : Digest) : List UInt8 := d.bytes.1

/-- `Digest::size`. lib.rs:54-56 -/
def Digest.size (d : Digest) : ℕ := d.bytes.1.length

/-- `TryFrom<&[u8]> for Digest`: succeeds iff the slice has length 32. lib.rs:77-82 -/
def Digest.tryFrom (l : List UInt8) : Option Digest :=
  if h : l.length = 32 then some ⟨⟨l, h⟩⟩ else none

/-- `generate_keypair`: `dalek::Keypair::generate` draws a 32-byte secret; the secret key stores
`keypair.to_bytes()` = secret ++ public. lib.rs:251-259. (The draw is the argument `seed`.) -/
def generateKeypair (ed : EdOps) (seed : Bytes 32) : PublicKey × SecretKey :=
  (⟨ed.derivePk seed⟩, ⟨Bytes.append32 seed (ed.derivePk seed)⟩)

/-- `Signature::new`: panics (`expect`) when the key bytes do not parse; otherwise signs the digest and
splits the 64 bytes. lib.rs:270-276 -/
def Signature.new {ε : Type} (ed : EdOps) (d : Digest) (sk : SecretKey) : Res ε Signature :=
  if ed.keypairOk sk.bytes then
    let sig := ed.sign sk.bytes d.bytes.1
    .ok ⟨⟨sig.1.take 32, by simp [sig.2]⟩, ⟨(sig.1.take 64).drop 32, by simp [sig.2]⟩⟩
  else .panic

/-- `Signature::flatten`. lib.rs:278-283 -/
def Signature.flatten (s : Signature) : Bytes 64 := Bytes.append32 s.part1 s.part2

/-- `Signature::verify`. lib.rs:285-289 -/
def Signature.verify (ed : EdOps) (s : Signature) (d : Digest) (pk : PublicKey) : Res CryptoError Unit :=
  if ed.sigOk s.flatten then
    if ed.pkOk pk.bytes then
      if ed.verifyStrict pk.bytes d.bytes.1 s.flatten then .ok () else .err .signatureError
    else .err .signatureError
  else .err .signatureError

/-- One iteration of the collecting loop of `verify_batch`. lib.rs:299-303 -/
def Signature.batchStep (ed : EdOps) (d : Digest)
    (acc : List (List UInt8) × List (Bytes 64) × List (Bytes 32)) (v : PublicKey × Signature) :
    Res CryptoError (List (List UInt8) × List (Bytes 64) × List (Bytes 32)) :=
  if ed.sigOk v.2.flatten then
    if ed.pkOk v.1.bytes then
      .ok (acc.1 ++ [d.bytes.1], acc.2.1 ++ [v.2.flatten], acc.2.2 ++ [v.1.bytes])
    else .err .signatureError
  else .err .signatureError

/-- `Signature::verify_batch`. lib.rs:291-306 -/
def Signature.verifyBatch (ed : EdOps) (d : Digest) (votes : List (PublicKey × Signature)) :
    Res CryptoError Unit := do
  let (ms, ss, ks) ← loop (Signature.batchStep ed d) ([], [], []) votes
  if ed.verifyBatch ms ss ks then .ok () else .err .signatureError

/-- `core::array::from_fn(|_| u8::deserialize(&mut reader).unwrap())`: reads `n` bytes, panics when the
reader is exhausted. lib.rs:107-109, 163-165, 239-241, 344-346 -/
def readBytes (n : ℕ) (l : List UInt8) : Res SerError (Bytes n × List UInt8) :=
  if h : n ≤ l.length then .ok (⟨l.take n, by simp [h]⟩, l.drop n) else .panic

/-- `CanonicalSerialize`/`Deserialize for Digest`. lib.rs:84-113 -/
def Digest.codec : Codec Digest where
  enc d := (d.bytes.1.map Codec.u8.enc).flatten
  dec l := do
    let (b, l) ← readBytes 32 l
    .ok (⟨b⟩, l)

/-- `CanonicalSerialize`/`Deserialize for PublicKey`. lib.rs:139-169 -/
def PublicKey.codec : Codec PublicKey where
  enc d := (d.bytes.1.map Codec.u8.enc).flatten
  dec l := do
    let (b, l) ← readBytes 32 l
    .ok (⟨b⟩, l)

/-- `CanonicalSerialize`/`Deserialize for SecretKey`. lib.rs:215-245 -/
def SecretKey.codec : Codec SecretKey where
  enc d := (d.bytes.1.map Codec.u8.enc).flatten
  dec l := do
    let (b, l) ← readBytes 64 l
    .ok (⟨b⟩, l)

/-- `CanonicalSerialize`/`Deserialize for Signature`. lib.rs:314-352 -/
def Signature.codec : Codec Signature where
  enc s := (s.part1.1.map Codec.u8.enc).flatten ++ (s.part2.1.map Codec.u8.enc).flatten
  dec l := do
    let (b, l) ← readBytes 64 l
    .ok (⟨⟨b.1.take 32, by simp [b.2]⟩, ⟨(b.1.take 64).drop 32, by simp [b.2]⟩⟩, l)

/-- `serialized_size` of the byte-array types: sum of the items' sizes. lib.rs:97-101, 153-157, 229-233 -/
def serializedSizeBytes {n : ℕ} (b : Bytes n) : ℕ := (b.1.map fun x => (Codec.u8.enc x).length).sum

/-- `Signature::serialized_size`. lib.rs:331-338 -/
def Signature.serializedSize (s : Signature) : ℕ := serializedSizeBytes s.part1 + serializedSizeBytes s.part2

end Verif
