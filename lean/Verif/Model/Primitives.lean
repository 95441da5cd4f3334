import Verif.Model.Ark
import Verif.Model.Ed25519

/-!
# The hash functions of the dependencies

BLAKE2s (`blake2s_simd` 0.5, RFC 7693), the ChaCha20 generator (`rand_chacha` 0.2 with `rand` 0.7), SHAKE256 (`sha3` 0.10, FIPS 202)
and SHA-512 (`sha2`, used by `ed25519-dalek`, FIPS 180-4).  The rest of the model takes these as parameters; here they are written out.
The source of these crates is not in /repo; the definitions follow the standards and the crates' published source.
-/

namespace Verif

/-! ## BLAKE2s -/

namespace Blake2s

/-- Initialisation vector. -/
def iv : List UInt32 :=
  [0x6A09E667, 0xBB67AE85, 0x3C6EF372, 0xA54FF53A, 0x510E527F, 0x9B05688C, 0x1F83D9AB, 0x5BE0CD19]

/-- Message schedule, one row per round. -/
def sigma : List (List ℕ) := [
  [0, 1, 2, 3, 4, 5, 6, 7, 8, 9, 10, 11, 12, 13, 14, 15],
  [14, 10, 4, 8, 9, 15, 13, 6, 1, 12, 0, 2, 11, 7, 5, 3],
  [11, 8, 12, 0, 5, 2, 15, 13, 10, 14, 3, 6, 7, 1, 9, 4],
  [7, 9, 3, 1, 13, 12, 11, 14, 2, 6, 5, 10, 4, 0, 15, 8],
  [9, 0, 5, 7, 2, 4, 10, 15, 14, 1, 11, 12, 6, 8, 3, 13],
  [2, 12, 6, 10, 0, 11, 8, 3, 4, 13, 7, 5, 15, 14, 1, 9],
  [12, 5, 1, 15, 14, 13, 4, 10, 0, 7, 6, 3, 9, 2, 8, 11],
  [13, 11, 7, 14, 12, 1, 3, 9, 5, 0, 15, 4, 8, 6, 2, 10],
  [6, 15, 14, 9, 11, 3, 0, 8, 12, 2, 13, 7, 1, 4, 10, 5],
  [10, 2, 8, 4, 7, 6, 1, 5, 15, 11, 9, 14, 3, 12, 13, 0]]

/-- Rotation to the right. -/
def rotr (x k : UInt32) : UInt32 := (x >>> k) ||| (x <<< (32 - k))

/-- The mixing function `G`. RFC 7693, 3.1 -/
def mix (v : List UInt32) (a b c d : ℕ) (x y : UInt32) : List UInt32 :=
  let v := v.set a (v.getD a 0 + v.getD b 0 + x)
  let v := v.set d (rotr (v.getD d 0 ^^^ v.getD a 0) 16)
  let v := v.set c (v.getD c 0 + v.getD d 0)
  let v := v.set b (rotr (v.getD b 0 ^^^ v.getD c 0) 12)
  let v := v.set a (v.getD a 0 + v.getD b 0 + y)
  let v := v.set d (rotr (v.getD d 0 ^^^ v.getD a 0) 8)
  let v := v.set c (v.getD c 0 + v.getD d 0)
  v.set b (rotr (v.getD b 0 ^^^ v.getD c 0) 7)

/-- One round with message words `m` in the order `s`. -/
def round (m v : List UInt32) (s : List ℕ) : List UInt32 :=
  let w i := m.getD (s.getD i 0) 0
  let v := mix v 0 4 8 12 (w 0) (w 1)
  let v := mix v 1 5 9 13 (w 2) (w 3)
  let v := mix v 2 6 10 14 (w 4) (w 5)
  let v := mix v 3 7 11 15 (w 6) (w 7)
  let v := mix v 0 5 10 15 (w 8) (w 9)
  let v := mix v 1 6 11 12 (w 10) (w 11)
  let v := mix v 2 7 8 13 (w 12) (w 13)
  mix v 3 4 9 14 (w 14) (w 15)

/-- The compression function `F`: state, block of 16 words, number of bytes so far, final block or not. RFC 7693, 3.2 -/
def compress (h m : List UInt32) (t : UInt64) (last : Bool) : List UInt32 :=
  let v := h ++ iv
  let v := v.set 12 (v.getD 12 0 ^^^ t.toUInt32)
  let v := v.set 13 (v.getD 13 0 ^^^ (t >>> 32).toUInt32)
  let v := if last then v.set 14 (~~~ v.getD 14 0) else v
  let v := sigma.foldl (round m) v
  (List.range 8).map fun i => h.getD i 0 ^^^ v.getD i 0 ^^^ v.getD (i + 8) 0

/-- The little-endian 32-bit words of a byte string. -/
def words (l : List UInt8) : List UInt32 :=
  (List.range (l.length / 4)).map fun i => UInt32.ofNat (Codec.leVal ((l.drop (4 * i)).take 4))

/-- The state after the message `l`, from the state `h` after `n` bytes. All blocks but the last have 64 bytes; the last is padded with
zeros. (`fuel` at least the length of `l`.) -/
def absorb : ℕ → List UInt32 → ℕ → List UInt8 → List UInt32
  | 0, h, n, l => compress h (words (l ++ List.replicate (64 - l.length) 0)) (UInt64.ofNat (n + l.length)) true
  | fuel + 1, h, n, l =>
    if l.length ≤ 64 then compress h (words (l ++ List.replicate (64 - l.length) 0)) (UInt64.ofNat (n + l.length)) true
    else absorb fuel (compress h (words (l.take 64)) (UInt64.ofNat (n + 64)) false) (n + 64) (l.drop 64)

/-- The state at the beginning: digests of 32 bytes, no key, sequential mode, 8 bytes of personalisation. -/
def init (persona : List UInt8) : List UInt32 := List.zipWith (· ^^^ ·) iv ([0x01010020, 0, 0, 0, 0, 0] ++ words persona)

/-- `Params::new().hash_length(32).personal(persona).to_state().update(msg).finalize()`, as eight words.
nizk/utils/hash.rs:9-14, signature/utils/hash.rs:9-14 -/
def hash (persona msg : List UInt8) : List UInt32 := absorb msg.length (init persona) 0 msg

end Blake2s

/-! ## ChaCha20 -/

namespace ChaCha

/-- Rotation to the left. -/
def rotl (x k : UInt32) : UInt32 := (x <<< k) ||| (x >>> (32 - k))

/-- Quarter round. -/
def quarter (v : List UInt32) (a b c d : ℕ) : List UInt32 :=
  let v := v.set a (v.getD a 0 + v.getD b 0)
  let v := v.set d (rotl (v.getD d 0 ^^^ v.getD a 0) 16)
  let v := v.set c (v.getD c 0 + v.getD d 0)
  let v := v.set b (rotl (v.getD b 0 ^^^ v.getD c 0) 12)
  let v := v.set a (v.getD a 0 + v.getD b 0)
  let v := v.set d (rotl (v.getD d 0 ^^^ v.getD a 0) 8)
  let v := v.set c (v.getD c 0 + v.getD d 0)
  v.set b (rotl (v.getD b 0 ^^^ v.getD c 0) 7)

/-- A round on columns and one on diagonals. -/
def double (v : List UInt32) : List UInt32 :=
  let v := quarter v 0 4 8 12
  let v := quarter v 1 5 9 13
  let v := quarter v 2 6 10 14
  let v := quarter v 3 7 11 15
  let v := quarter v 0 5 10 15
  let v := quarter v 1 6 11 12
  let v := quarter v 2 7 8 13
  quarter v 3 4 9 14

/-- Constants, key, 64-bit block counter, 64-bit stream number 0. -/
def start (key : List UInt32) (ctr : UInt64) : List UInt32 :=
  ([0x61707865, 0x3320646e, 0x79622d32, 0x6b206574] : List UInt32) ++ key ++ [ctr.toUInt32, (ctr >>> 32).toUInt32, 0, 0]

/-- A block of 16 words. -/
def block (key : List UInt32) (ctr : UInt64) : List UInt32 :=
  List.zipWith (· + ·) (start key ctr) (double^[10] (start key ctr))

/-- The `j`-th `next_u32` of `ChaChaRng::from_seed`; the block counter wraps around. -/
def word (key : List UInt32) (j : ℕ) : UInt32 := (block key (UInt64.ofNat (j / 16))).getD (j % 16) 0

/-- The `j`-th `rng.gen::<u8>()`: the lowest byte of a word of its own. -/
def byte (key : List UInt32) (j : ℕ) : UInt8 := (word key j).toUInt8

end ChaCha

/-- `rng_from_message` followed by `rng.gen::<u8>()`s: the generator is seeded with the digest. nizk/utils/hash.rs:8-18 -/
def blakeChaCha (persona msg : List UInt8) : ℕ → UInt8 := ChaCha.byte (Blake2s.hash persona msg)

/-! ## SHAKE256 -/

namespace Keccak

/-- Rotation to the left. -/
def rotl (x : UInt64) (k : ℕ) : UInt64 := if k = 0 then x else (x <<< UInt64.ofNat k) ||| (x >>> UInt64.ofNat (64 - k))

/-- θ; the lane `(x, y)` is at `5 y + x`. -/
def theta (a : List UInt64) : List UInt64 :=
  let c := (List.range 5).map fun x => a.getD x 0 ^^^ a.getD (x + 5) 0 ^^^ a.getD (x + 10) 0 ^^^ a.getD (x + 15) 0 ^^^ a.getD (x + 20) 0
  let d := (List.range 5).map fun x => c.getD ((x + 4) % 5) 0 ^^^ rotl (c.getD ((x + 1) % 5) 0) 1
  (List.range 25).map fun i => a.getD i 0 ^^^ d.getD (i % 5) 0

/-- Rotation offsets. -/
def offsets : List ℕ := [0, 1, 62, 28, 27, 36, 44, 6, 55, 20, 3, 10, 43, 25, 39, 41, 45, 15, 21, 8, 18, 2, 61, 56, 14]

/-- ρ and π. -/
def rhoPi (a : List UInt64) : List UInt64 :=
  (List.range 25).map fun i =>
    let j := 5 * (i % 5) + (i % 5 + 3 * (i / 5)) % 5
    rotl (a.getD j 0) (offsets.getD j 0)

/-- χ -/
def chi (b : List UInt64) : List UInt64 :=
  (List.range 25).map fun i =>
    b.getD i 0 ^^^ (~~~ b.getD (5 * (i / 5) + (i + 1) % 5) 0 &&& b.getD (5 * (i / 5) + (i + 2) % 5) 0)

/-- Round constants. -/
def constants : List UInt64 := [
  0x0000000000000001, 0x0000000000008082, 0x800000000000808A, 0x8000000080008000, 0x000000000000808B, 0x0000000080000001,
  0x8000000080008081, 0x8000000000008009, 0x000000000000008A, 0x0000000000000088, 0x0000000080008009, 0x000000008000000A,
  0x000000008000808B, 0x800000000000008B, 0x8000000000008089, 0x8000000000008003, 0x8000000000008002, 0x8000000000000080,
  0x000000000000800A, 0x800000008000000A, 0x8000000080008081, 0x8000000000008080, 0x0000000080000001, 0x8000000080008008]

/-- One round. -/
def round (a : List UInt64) (c : UInt64) : List UInt64 :=
  let b := chi (rhoPi (theta a))
  b.set 0 (b.getD 0 0 ^^^ c)

/-- Keccak-f[1600] -/
def f (a : List UInt64) : List UInt64 := constants.foldl round a

/-- The little-endian 64-bit words of a byte string. -/
def words (l : List UInt8) : List UInt64 :=
  (List.range (l.length / 8)).map fun i => UInt64.ofNat (Codec.leVal ((l.drop (8 * i)).take 8))

/-- Exclusive or of a block of 17 words into the state, then the permutation. -/
def absorbBlock (a : List UInt64) (b : List UInt8) : List UInt64 :=
  f (List.zipWith (· ^^^ ·) a (words b ++ List.replicate 8 0))

/-- Absorbing 136 bytes at a time; the last block ends with the padding `0x1F 0 … 0 0x80`. (`fuel` at least the length of `l`.) -/
def absorb : ℕ → List UInt64 → List UInt8 → List UInt64
  | 0, a, _ => a
  | fuel + 1, a, l =>
    if l.length < 136 then
      absorbBlock a (if l.length = 135 then l ++ [0x9F] else l ++ [0x1F] ++ List.replicate (134 - l.length) 0 ++ [0x80])
    else absorb fuel (absorbBlock a (l.take 136)) (l.drop 136)

/-- The first 32 bytes of SHAKE256. decomp.rs:85-94 -/
def shake256 (msg : List UInt8) : Bytes 32 :=
  let a := absorb (msg.length + 1) (List.replicate 25 0) msg
  ⟨Codec.leBytes 8 (a.getD 0 0).toNat ++ Codec.leBytes 8 (a.getD 1 0).toNat ++ Codec.leBytes 8 (a.getD 2 0).toNat ++
    Codec.leBytes 8 (a.getD 3 0).toNat, by simp [Codec.length_leBytes]⟩

end Keccak

/-! ## SHA-512 -/

namespace Sha512

/-- Initial state. -/
def iv : List UInt64 := [
  0x6a09e667f3bcc908, 0xbb67ae8584caa73b, 0x3c6ef372fe94f82b, 0xa54ff53a5f1d36f1,
  0x510e527fade682d1, 0x9b05688c2b3e6c1f, 0x1f83d9abfb41bd6b, 0x5be0cd19137e2179]

/-- Round constants. -/
def k : List UInt64 := [
  0x428a2f98d728ae22, 0x7137449123ef65cd, 0xb5c0fbcfec4d3b2f, 0xe9b5dba58189dbbc, 0x3956c25bf348b538,
  0x59f111f1b605d019, 0x923f82a4af194f9b, 0xab1c5ed5da6d8118, 0xd807aa98a3030242, 0x12835b0145706fbe,
  0x243185be4ee4b28c, 0x550c7dc3d5ffb4e2, 0x72be5d74f27b896f, 0x80deb1fe3b1696b1, 0x9bdc06a725c71235,
  0xc19bf174cf692694, 0xe49b69c19ef14ad2, 0xefbe4786384f25e3, 0x0fc19dc68b8cd5b5, 0x240ca1cc77ac9c65,
  0x2de92c6f592b0275, 0x4a7484aa6ea6e483, 0x5cb0a9dcbd41fbd4, 0x76f988da831153b5, 0x983e5152ee66dfab,
  0xa831c66d2db43210, 0xb00327c898fb213f, 0xbf597fc7beef0ee4, 0xc6e00bf33da88fc2, 0xd5a79147930aa725,
  0x06ca6351e003826f, 0x142929670a0e6e70, 0x27b70a8546d22ffc, 0x2e1b21385c26c926, 0x4d2c6dfc5ac42aed,
  0x53380d139d95b3df, 0x650a73548baf63de, 0x766a0abb3c77b2a8, 0x81c2c92e47edaee6, 0x92722c851482353b,
  0xa2bfe8a14cf10364, 0xa81a664bbc423001, 0xc24b8b70d0f89791, 0xc76c51a30654be30, 0xd192e819d6ef5218,
  0xd69906245565a910, 0xf40e35855771202a, 0x106aa07032bbd1b8, 0x19a4c116b8d2d0c8, 0x1e376c085141ab53,
  0x2748774cdf8eeb99, 0x34b0bcb5e19b48a8, 0x391c0cb3c5c95a63, 0x4ed8aa4ae3418acb, 0x5b9cca4f7763e373,
  0x682e6ff3d6b2b8a3, 0x748f82ee5defb2fc, 0x78a5636f43172f60, 0x84c87814a1f0ab72, 0x8cc702081a6439ec,
  0x90befffa23631e28, 0xa4506cebde82bde9, 0xbef9a3f7b2c67915, 0xc67178f2e372532b, 0xca273eceea26619c,
  0xd186b8c721c0c207, 0xeada7dd6cde0eb1e, 0xf57d4f7fee6ed178, 0x06f067aa72176fba, 0x0a637dc5a2c898a6,
  0x113f9804bef90dae, 0x1b710b35131c471b, 0x28db77f523047d84, 0x32caab7b40c72493, 0x3c9ebe0a15c9bebc,
  0x431d67c49c100d4c, 0x4cc5d4becb3e42b6, 0x597f299cfc657e2a, 0x5fcb6fab3ad6faec, 0x6c44198c4a475817]

/-- Rotation to the right. -/
def rotr (x k : UInt64) : UInt64 := (x >>> k) ||| (x <<< (64 - k))

/-- The next word of the message schedule; `w` holds the last 16. -/
def next (w : List UInt64) : UInt64 :=
  let a := w.getD 1 0
  let b := w.getD 14 0
  (rotr b 19 ^^^ rotr b 61 ^^^ (b >>> 6)) + w.getD 9 0 + (rotr a 1 ^^^ rotr a 8 ^^^ (a >>> 7)) + w.getD 0 0

/-- One round: state and the words to come. -/
def round (st : List UInt64 × List UInt64) (k : UInt64) : List UInt64 × List UInt64 :=
  let v := st.1
  let e := v.getD 4 0
  let a := v.getD 0 0
  let t1 := v.getD 7 0 + (rotr e 14 ^^^ rotr e 18 ^^^ rotr e 41) + ((e &&& v.getD 5 0) ^^^ (~~~ e &&& v.getD 6 0)) + k + st.2.getD 0 0
  let t2 := (rotr a 28 ^^^ rotr a 34 ^^^ rotr a 39) + ((a &&& v.getD 1 0) ^^^ (a &&& v.getD 2 0) ^^^ (v.getD 1 0 &&& v.getD 2 0))
  ([t1 + t2, a, v.getD 1 0, v.getD 2 0, v.getD 3 0 + t1, e, v.getD 5 0, v.getD 6 0], st.2.tail ++ [next st.2])

/-- The compression function: state and block of 16 words. -/
def compress (h m : List UInt64) : List UInt64 := List.zipWith (· + ·) h (k.foldl round (h, m)).1

/-- The big-endian 64-bit words of a byte string. -/
def words (l : List UInt8) : List UInt64 :=
  (List.range (l.length / 8)).map fun i => UInt64.ofNat (Codec.leVal ((l.drop (8 * i)).take 8).reverse)

/-- Padding: a bit 1, zeros, and the number of bits in 16 big-endian bytes, to a multiple of 128 bytes. -/
def pad (l : List UInt8) : List UInt8 :=
  l ++ [0x80] ++ List.replicate ((239 - l.length % 128) % 128) 0 ++ (Codec.leBytes 16 (8 * l.length)).reverse

/-- Compressing blocks of 128 bytes. (`fuel` at least the number of blocks.) -/
def absorb : ℕ → List UInt64 → List UInt8 → List UInt64
  | 0, h, _ => h
  | fuel + 1, h, l => if l.length < 128 then h else absorb fuel (compress h (words (l.take 128))) (l.drop 128)

/-- The eight words of the digest. -/
def state (msg : List UInt8) : List UInt64 := absorb (msg.length + 2) iv (pad msg)

/-- SHA-512 -/
def hash (msg : List UInt8) : Bytes 64 :=
  ⟨(List.range 8).flatMap fun i => (Codec.leBytes 8 ((state msg).getD i 0).toNat).reverse, by simp [Codec.length_leBytes]⟩

end Sha512

end Verif
