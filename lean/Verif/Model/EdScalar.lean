import Verif.Model.EdLimb

/-!
# Scalars of Ed25519 in five limbs

`Scalar52` of `curve25519-dalek` 3 (`backend/serial/u64/scalar.rs`) and the operations of `scalar.rs` on it, with `check_scalar` of
`ed25519-dalek` 1.0.1 (the sources are not in /repo, the definitions follow the published ones), below the calls of
/repo/src/lib.rs:271 (signing), :285-289 (single verification) and :291-306 (batch verification).

As in `Model/EdLimb.lean` limbs are natural numbers, every operation that is not `wrapping_` is checked against its type (`none` when it
leaves it), sums are checked once, and shifts and masks are division and remainder.  A `Scalar` is the value of its 32 bytes.  The mask
`underflow_mask` is a conditional.
-/

namespace Verif.EdProj

/-- `Scalar52`: the value is `a0 + 2^52 a1 + 2^104 a2 + 2^156 a3 + 2^208 a4`. -/
structure Sc where
  a0 : ℕ
  a1 : ℕ
  a2 : ℕ
  a3 : ℕ
  a4 : ℕ
  deriving DecidableEq

namespace Sc

open Fe (u64 u128)

/-- `constants::L`, `LFACTOR`, `R` and `RR`. -/
def L : Sc := ⟨0x0002631a5cf5d3ed, 0x000dea2f79cd6581, 0x000000000014def9, 0, 0x0000100000000000⟩
def lFactor : ℕ := 0x51da312547e1b
def R : Sc := ⟨0x000f48bd6721e6ed, 0x0003bab5ac67e45a, 0x000fffffeb35e51b, 0x000fffffffffffff, 0x00000fffffffffff⟩
def RR : Sc := ⟨0x0009d265e952d13b, 0x000d63c715bea69f, 0x0005be65cb687604, 0x0003dceec73d217f, 0x000009411b7c309a⟩

/-- The words of 64 bits, little-endian. -/
def word (n i : ℕ) : ℕ := n / 2 ^ (64 * i) % 2 ^ 64

/-- `(x >> s | y << t) & mask`, the left shift in 64 bits. -/
def join (x s y t : ℕ) : ℕ := (x / 2 ^ s ||| y * 2 ^ t % 2 ^ 64) % 2 ^ 52

/-- `from_bytes`. -/
def ofNat (n : ℕ) : Sc :=
  ⟨word n 0 % 2 ^ 52, join (word n 0) 52 (word n 1) 12, join (word n 1) 40 (word n 2) 24, join (word n 2) 28 (word n 3) 36,
    word n 3 / 2 ^ 16 % 2 ^ 48⟩

/-- `to_bytes`, before the cast to `u8`. -/
def pack (l : Sc) : List ℕ := [
  l.a0, l.a0 / 2 ^ 8, l.a0 / 2 ^ 16, l.a0 / 2 ^ 24, l.a0 / 2 ^ 32, l.a0 / 2 ^ 40, l.a0 / 2 ^ 48 ||| l.a1 * 2 ^ 4,
  l.a1 / 2 ^ 4, l.a1 / 2 ^ 12, l.a1 / 2 ^ 20, l.a1 / 2 ^ 28, l.a1 / 2 ^ 36, l.a1 / 2 ^ 44,
  l.a2, l.a2 / 2 ^ 8, l.a2 / 2 ^ 16, l.a2 / 2 ^ 24, l.a2 / 2 ^ 32, l.a2 / 2 ^ 40, l.a2 / 2 ^ 48 ||| l.a3 * 2 ^ 4,
  l.a3 / 2 ^ 4, l.a3 / 2 ^ 12, l.a3 / 2 ^ 20, l.a3 / 2 ^ 28, l.a3 / 2 ^ 36, l.a3 / 2 ^ 44,
  l.a4, l.a4 / 2 ^ 8, l.a4 / 2 ^ 16, l.a4 / 2 ^ 24, l.a4 / 2 ^ 32, l.a4 / 2 ^ 40]

/-- `to_bytes`, as a value. -/
def toNat (l : Sc) : ℕ := Codec.leVal (l.pack.map UInt8.ofNat)

/-- `wrapping_sub` of `u64`. -/
def wsub (a b : ℕ) : ℕ := (a + 2 ^ 64 - b) % 2 ^ 64

/-- The second loop of `sub`: the limbs of `c` are added with carries, the last carry is dropped. -/
def addCarry (d c : Sc) : Option Sc := do
  let k ← u64 (0 + d.a0 + c.a0)
  let e0 := k % 2 ^ 52
  let k ← u64 (k / 2 ^ 52 + d.a1 + c.a1)
  let e1 := k % 2 ^ 52
  let k ← u64 (k / 2 ^ 52 + d.a2 + c.a2)
  let e2 := k % 2 ^ 52
  let k ← u64 (k / 2 ^ 52 + d.a3 + c.a3)
  let e3 := k % 2 ^ 52
  let k ← u64 (k / 2 ^ 52 + d.a4 + c.a4)
  let e4 := k % 2 ^ 52
  return ⟨e0, e1, e2, e3, e4⟩

/-- `sub`: with borrows, and `L` is added when the last borrow is set. -/
def sub (a b : Sc) : Option Sc := do
  let k := wsub a.a0 (← u64 (b.a0 + 0))
  let d0 := k % 2 ^ 52
  let k := wsub a.a1 (← u64 (b.a1 + k / 2 ^ 63))
  let d1 := k % 2 ^ 52
  let k := wsub a.a2 (← u64 (b.a2 + k / 2 ^ 63))
  let d2 := k % 2 ^ 52
  let k := wsub a.a3 (← u64 (b.a3 + k / 2 ^ 63))
  let d3 := k % 2 ^ 52
  let k := wsub a.a4 (← u64 (b.a4 + k / 2 ^ 63))
  let d4 := k % 2 ^ 52
  addCarry ⟨d0, d1, d2, d3, d4⟩ (if k / 2 ^ 63 = 1 then L else ⟨0, 0, 0, 0, 0⟩)

/-- `add`: with carries, then `L` is subtracted. -/
def add (a b : Sc) : Option Sc := do sub (← addCarry a b) L

/-- The first half of a step of `montgomery_reduce`: a multiple of `L` that makes the lowest limb zero. -/
def part1 (sum : ℕ) : Option (ℕ × ℕ) := do
  let sum ← u128 sum
  let p := sum % 2 ^ 64 * lFactor % 2 ^ 64 % 2 ^ 52
  return ((← u128 (sum + p * L.a0)) / 2 ^ 52, p)

/-- The second half: a limb of the result. -/
def part2 (sum : ℕ) : Option (ℕ × ℕ) := do
  let sum ← u128 sum
  return (sum / 2 ^ 52, sum % 2 ^ 52)

/-- `montgomery_reduce` of `mul_internal`: `a b / 2^260` modulo `L`. -/
def montMul (a b : Sc) : Option Sc := do
  let z0 ← u128 (a.a0 * b.a0)
  let z1 ← u128 (a.a0 * b.a1 + a.a1 * b.a0)
  let z2 ← u128 (a.a0 * b.a2 + a.a1 * b.a1 + a.a2 * b.a0)
  let z3 ← u128 (a.a0 * b.a3 + a.a1 * b.a2 + a.a2 * b.a1 + a.a3 * b.a0)
  let z4 ← u128 (a.a0 * b.a4 + a.a1 * b.a3 + a.a2 * b.a2 + a.a3 * b.a1 + a.a4 * b.a0)
  let z5 ← u128 (a.a1 * b.a4 + a.a2 * b.a3 + a.a3 * b.a2 + a.a4 * b.a1)
  let z6 ← u128 (a.a2 * b.a4 + a.a3 * b.a3 + a.a4 * b.a2)
  let z7 ← u128 (a.a3 * b.a4 + a.a4 * b.a3)
  let z8 ← u128 (a.a4 * b.a4)
  let (c, n0) ← part1 z0
  let (c, n1) ← part1 (c + z1 + n0 * L.a1)
  let (c, n2) ← part1 (c + z2 + n0 * L.a2 + n1 * L.a1)
  let (c, n3) ← part1 (c + z3 + n1 * L.a2 + n2 * L.a1)
  let (c, n4) ← part1 (c + z4 + n0 * L.a4 + n2 * L.a2 + n3 * L.a1)
  let (c, r0) ← part2 (c + z5 + n1 * L.a4 + n3 * L.a2 + n4 * L.a1)
  let (c, r1) ← part2 (c + z6 + n2 * L.a4 + n4 * L.a2)
  let (c, r2) ← part2 (c + z7 + n3 * L.a4)
  let (c, r3) ← part2 (c + z8 + n4 * L.a4)
  sub ⟨r0, r1, r2, r3, c % 2 ^ 64⟩ L

/-- `mul`. -/
def mul (a b : Sc) : Option Sc := do montMul (← montMul a b) RR

/-- `from_bytes_wide`: 512 bits. -/
def ofWide (n : ℕ) : Option Sc := do
  let lo ← montMul ⟨word n 0 % 2 ^ 52, join (word n 0) 52 (word n 1) 12, join (word n 1) 40 (word n 2) 24,
    join (word n 2) 28 (word n 3) 36, join (word n 3) 16 (word n 4) 48⟩ R
  let hi ← montMul ⟨word n 4 / 2 ^ 4 % 2 ^ 52, join (word n 4) 56 (word n 5) 8, join (word n 5) 44 (word n 6) 20,
    join (word n 6) 32 (word n 7) 32, word n 7 / 2 ^ 20⟩ RR
  add hi lo

end Sc

namespace Scalar

/-- `Scalar::from_bytes_mod_order_wide`, at the end of `from_hash`. -/
def wide (h : Bytes 64) : Option ℕ := do return (← Sc.ofWide (Codec.leVal h.1)).toNat

/-- `reduce`. -/
def reduce (n : ℕ) : Option ℕ := do return (← Sc.montMul (Sc.ofNat n) Sc.R).toNat

/-- `&Scalar * &Scalar`. -/
def mul (m n : ℕ) : Option ℕ := do return (← Sc.mul (Sc.ofNat m) (Sc.ofNat n)).toNat

/-- `&Scalar + &Scalar`: the sum is reduced again. -/
def add (m n : ℕ) : Option ℕ := do return (← Sc.montMul (← Sc.add (Sc.ofNat m) (Sc.ofNat n)) Sc.R).toNat

/-- `-&Scalar`. -/
def neg (n : ℕ) : Option ℕ := do return (← Sc.sub ⟨0, 0, 0, 0, 0⟩ (← Sc.montMul (Sc.ofNat n) Sc.R)).toNat

/-- `Sum`. -/
def sum (l : List ℕ) : Option ℕ := l.foldlM add 0

/-- `check_scalar`: nothing to compute when the top four bits are zero, otherwise `from_canonical_bytes`. -/
def check (n : ℕ) : Option Bool :=
  if n / 2 ^ 252 % 16 = 0 then some true
  else if n / 2 ^ 255 % 2 = 1 then some false
  else do return decide (n = (← reduce n))

end Scalar

section

variable (F : Type) [Add F] [Sub F] [Neg F] [Mul F] [Zero F] [One F] [FE F]

open EdCurve

/-- `ExpandedSecretKey::sign`, as `sign` in `EdProj.ops`. -/
def signS (sha : List UInt8 → Bytes 64) (b : Bytes 64) (msg : List UInt8) : Option (Bytes 64) := do
  let seed := (fst32 b).1
  let pk := snd32 b
  let r ← Scalar.wide (sha ((sha seed).1.drop 32 ++ msg))
  let R := (mulBase r : Ext F).compress
  let k ← Scalar.wide (sha (R.1 ++ (pk.1 ++ msg)))
  let s ← Scalar.add (← Scalar.mul k (clamp (Codec.leVal ((sha seed).1.take 32)))) r
  return Bytes.append32 R ⟨Codec.leBytes 32 s, Codec.length_leBytes _ _⟩

/-- `PublicKey::verify_strict`, as `EdProj.strict`. -/
def strictS (sha : List UInt8 → Bytes 64) (pk : Bytes 32) (msg : List UInt8) (sig : Bytes 64) : Option Bool := do
  if ← Scalar.check (sOf sig) then
    match (Ext.decompress (fst32 sig) : Option (Ext F)), (Ext.decompress pk : Option (Ext F)) with
    | some R, some A =>
      if R.isSmallOrder || A.isSmallOrder then return false
      else
        let k ← Scalar.wide (sha ((fst32 sig).1 ++ (pk.1 ++ msg)))
        return (doubleBase k A.neg (sOf sig)).eq R
    | _, _ => return false
  else return false

/-- `verify_batch`, as `EdProj.batch`. -/
def batchS (sha : List UInt8 → Bytes 64) (z : ℕ → ℕ) (ms : List (List UInt8)) (ss : List (Bytes 64)) (ks : List (Bytes 32)) :
    Option Bool := do
  if ss.length = ms.length ∧ ss.length = ks.length then
    let ok ← ss.mapM fun s => Scalar.check (sOf s)
    if ok.all id then
      let zs := (List.range ss.length).map z
      let hrams ← (ms.zip (ss.zip ks)).mapM fun v => Scalar.wide (sha ((fst32 v.2.1).1 ++ (v.2.2.1 ++ v.1)))
      let b ← Scalar.sum (← (ss.zip zs).mapM fun p => Scalar.mul p.2 (sOf p.1))
      let zhrams ← (hrams.zip zs).mapM fun p => Scalar.mul p.1 p.2
      match multiscalar ((← Scalar.neg b) :: (zs ++ zhrams))
          (some (Ext.base : Ext F) :: ((ss.map fun s => Ext.decompress (fst32 s)) ++ ks.map Ext.decompress)) with
      | some e => return e.isId
      | none => return false
    else return false
  else return false

end

end Verif.EdProj
