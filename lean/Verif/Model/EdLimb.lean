import Verif.Model.EdProj

/-!
# Field elements of Ed25519 in five limbs

`FieldElement51` of `curve25519-dalek` 3 (`backend/serial/u64/field.rs`, the back end that `ed25519-dalek = "1.0.1"` of /repo/Cargo.toml:20
selects by default; the source is not in /repo, the definitions follow the published one).  It is below the calls of /repo/src/lib.rs:255,
:271 and :285-306.

Limbs are natural numbers and every addition, subtraction and product is checked against its type: `none` when it leaves it, which is a
panic in builds with overflow checks and a wrong result without.  `debug_assert!` is checked too.  Simplifications: a sum of products is
checked once, which is enough as no summand is negative; shifts and masks are division and remainder; bytes are read as their value.
-/

namespace Verif.EdProj

/-- `FieldElement51`: the value is `a0 + 2^51 a1 + 2^102 a2 + 2^153 a3 + 2^204 a4`. -/
structure Fe where
  a0 : ℕ
  a1 : ℕ
  a2 : ℕ
  a3 : ℕ
  a4 : ℕ
  deriving DecidableEq

namespace Fe

/-- A value of type `u64`. -/
def u64 (n : ℕ) : Option ℕ := if n < 2 ^ 64 then some n else none

/-- A value of type `u128`. -/
def u128 (n : ℕ) : Option ℕ := if n < 2 ^ 128 then some n else none

/-- Subtraction in `u64`. -/
def usub (a b : ℕ) : Option ℕ := if b ≤ a then some (a - b) else none

/-- `AddAssign`: limb by limb, without carry. -/
def add (a b : Fe) : Option Fe := do
  return ⟨← u64 (a.a0 + b.a0), ← u64 (a.a1 + b.a1), ← u64 (a.a2 + b.a2), ← u64 (a.a3 + b.a3), ← u64 (a.a4 + b.a4)⟩

/-- `reduce`: the carries of all limbs at once. -/
def reduce (a : Fe) : Option Fe := do
  let c0 := a.a0 / 2 ^ 51
  let c1 := a.a1 / 2 ^ 51
  let c2 := a.a2 / 2 ^ 51
  let c3 := a.a3 / 2 ^ 51
  let c4 := a.a4 / 2 ^ 51
  return ⟨← u64 (a.a0 % 2 ^ 51 + c4 * 19), ← u64 (a.a1 % 2 ^ 51 + c0), ← u64 (a.a2 % 2 ^ 51 + c1), ← u64 (a.a3 % 2 ^ 51 + c2),
    ← u64 (a.a4 % 2 ^ 51 + c3)⟩

/-- `Sub`: 16 times the modulus is added first, so that no limb gets negative. -/
def sub (a b : Fe) : Option Fe := do
  let s0 ← usub (← u64 (a.a0 + 36028797018963664)) b.a0
  let s1 ← usub (← u64 (a.a1 + 36028797018963952)) b.a1
  let s2 ← usub (← u64 (a.a2 + 36028797018963952)) b.a2
  let s3 ← usub (← u64 (a.a3 + 36028797018963952)) b.a3
  let s4 ← usub (← u64 (a.a4 + 36028797018963952)) b.a4
  reduce ⟨s0, s1, s2, s3, s4⟩

/-- `negate`. -/
def neg (a : Fe) : Option Fe := do
  let s0 ← usub 36028797018963664 a.a0
  let s1 ← usub 36028797018963952 a.a1
  let s2 ← usub 36028797018963952 a.a2
  let s3 ← usub 36028797018963952 a.a3
  let s4 ← usub 36028797018963952 a.a4
  reduce ⟨s0, s1, s2, s3, s4⟩

/-- The end of `mul` and `pow2k`: carries from the lowest product up, and the last one to the lowest limb.  `as u64` is the remainder. -/
def carry (c0 c1 c2 c3 c4 : ℕ) : Option Fe := do
  let c0 ← u128 c0
  let c1 ← u128 c1
  let c2 ← u128 c2
  let c3 ← u128 c3
  let c4 ← u128 c4
  let c1 ← u128 (c1 + c0 / 2 ^ 51 % 2 ^ 64)
  let o0 := c0 % 2 ^ 51
  let c2 ← u128 (c2 + c1 / 2 ^ 51 % 2 ^ 64)
  let o1 := c1 % 2 ^ 51
  let c3 ← u128 (c3 + c2 / 2 ^ 51 % 2 ^ 64)
  let o2 := c2 % 2 ^ 51
  let c4 ← u128 (c4 + c3 / 2 ^ 51 % 2 ^ 64)
  let o3 := c3 % 2 ^ 51
  let k := c4 / 2 ^ 51 % 2 ^ 64
  let o4 := c4 % 2 ^ 51
  let o0 ← u64 (o0 + (← u64 (k * 19)))
  let o1 ← u64 (o1 + o0 / 2 ^ 51)
  return ⟨o0 % 2 ^ 51, o1, o2, o3, o4⟩

/-- The `debug_assert!`s of `mul` and `pow2k`. -/
def small (a : Fe) : Bool := a.a0 < 2 ^ 54 ∧ a.a1 < 2 ^ 54 ∧ a.a2 < 2 ^ 54 ∧ a.a3 < 2 ^ 54 ∧ a.a4 < 2 ^ 54

/-- `Mul`. -/
def mul (a b : Fe) : Option Fe := do
  let b1 ← u64 (b.a1 * 19)
  let b2 ← u64 (b.a2 * 19)
  let b3 ← u64 (b.a3 * 19)
  let b4 ← u64 (b.a4 * 19)
  guard (a.small && b.small)
  carry (a.a0 * b.a0 + a.a4 * b1 + a.a3 * b2 + a.a2 * b3 + a.a1 * b4)
    (a.a1 * b.a0 + a.a0 * b.a1 + a.a4 * b2 + a.a3 * b3 + a.a2 * b4)
    (a.a2 * b.a0 + a.a1 * b.a1 + a.a0 * b.a2 + a.a4 * b3 + a.a3 * b4)
    (a.a3 * b.a0 + a.a2 * b.a1 + a.a1 * b.a2 + a.a0 * b.a3 + a.a4 * b4)
    (a.a4 * b.a0 + a.a3 * b.a1 + a.a2 * b.a2 + a.a1 * b.a3 + a.a0 * b.a4)

/-- One turn of the loop of `pow2k`. -/
def square (a : Fe) : Option Fe := do
  let a3 ← u64 (19 * a.a3)
  let a4 ← u64 (19 * a.a4)
  guard a.small
  carry (a.a0 * a.a0 + 2 * (a.a1 * a4 + a.a2 * a3))
    (a.a3 * a3 + 2 * (a.a0 * a.a1 + a.a2 * a4))
    (a.a1 * a.a1 + 2 * (a.a0 * a.a2 + a.a4 * a3))
    (a.a4 * a4 + 2 * (a.a0 * a.a3 + a.a1 * a.a2))
    (a.a2 * a.a2 + 2 * (a.a0 * a.a4 + a.a1 * a.a3))

/-- `pow2k`, which asserts that `k > 0`. -/
def pow2k : ℕ → Fe → Option Fe
  | 0, _ => none
  | 1, a => a.square
  | k + 2, a => do pow2k (k + 1) (← a.square)

/-- `square2`. -/
def square2 (a : Fe) : Option Fe := do
  let s ← pow2k 1 a
  return ⟨← u64 (s.a0 * 2), ← u64 (s.a1 * 2), ← u64 (s.a2 * 2), ← u64 (s.a3 * 2), ← u64 (s.a4 * 2)⟩

/-- The first half of `to_bytes`: the limbs of the value below the modulus. -/
def canon (a : Fe) : Option Fe := do
  let l ← a.reduce
  let q := (← u64 (l.a0 + 19)) / 2 ^ 51
  let q := (← u64 (l.a1 + q)) / 2 ^ 51
  let q := (← u64 (l.a2 + q)) / 2 ^ 51
  let q := (← u64 (l.a3 + q)) / 2 ^ 51
  let q := (← u64 (l.a4 + q)) / 2 ^ 51
  let l0 ← u64 (l.a0 + 19 * q)
  let l1 ← u64 (l.a1 + l0 / 2 ^ 51)
  let l2 ← u64 (l.a2 + l1 / 2 ^ 51)
  let l3 ← u64 (l.a3 + l2 / 2 ^ 51)
  let l4 ← u64 (l.a4 + l3 / 2 ^ 51)
  return ⟨l0 % 2 ^ 51, l1 % 2 ^ 51, l2 % 2 ^ 51, l3 % 2 ^ 51, l4 % 2 ^ 51⟩

/-- The second half of `to_bytes`: the 32 bytes, before the cast to `u8`, which keeps the lowest eight bits. -/
def pack (l : Fe) : List ℕ := [
  l.a0, l.a0 / 2 ^ 8, l.a0 / 2 ^ 16, l.a0 / 2 ^ 24, l.a0 / 2 ^ 32, l.a0 / 2 ^ 40, l.a0 / 2 ^ 48 ||| l.a1 * 2 ^ 3,
  l.a1 / 2 ^ 5, l.a1 / 2 ^ 13, l.a1 / 2 ^ 21, l.a1 / 2 ^ 29, l.a1 / 2 ^ 37, l.a1 / 2 ^ 45 ||| l.a2 * 2 ^ 6,
  l.a2 / 2 ^ 2, l.a2 / 2 ^ 10, l.a2 / 2 ^ 18, l.a2 / 2 ^ 26, l.a2 / 2 ^ 34, l.a2 / 2 ^ 42, l.a2 / 2 ^ 50 ||| l.a3 * 2 ^ 1,
  l.a3 / 2 ^ 7, l.a3 / 2 ^ 15, l.a3 / 2 ^ 23, l.a3 / 2 ^ 31, l.a3 / 2 ^ 39, l.a3 / 2 ^ 47 ||| l.a4 * 2 ^ 4,
  l.a4 / 2 ^ 4, l.a4 / 2 ^ 12, l.a4 / 2 ^ 20, l.a4 / 2 ^ 28, l.a4 / 2 ^ 36, l.a4 / 2 ^ 44]

/-- `to_bytes`. -/
def toBytes (a : Fe) : Option (List UInt8) := do return (← a.canon).pack.map UInt8.ofNat

/-- `from_bytes` from the value of the bytes: `load8` at five offsets. -/
def ofNat (n : ℕ) : Fe :=
  let load8 (k : ℕ) := n / 256 ^ k % 2 ^ 64
  ⟨load8 0 % 2 ^ 51, load8 6 / 2 ^ 3 % 2 ^ 51, load8 12 / 2 ^ 6 % 2 ^ 51, load8 19 / 2 ^ 1 % 2 ^ 51, load8 24 / 2 ^ 12 % 2 ^ 51⟩

end Fe

/-- A field element in limbs, or nothing once an operation has overflowed. -/
structure Limb where
  get : Option Fe

namespace Limb

instance : Add Limb := ⟨fun a b => ⟨do Fe.add (← a.get) (← b.get)⟩⟩

instance : Sub Limb := ⟨fun a b => ⟨do Fe.sub (← a.get) (← b.get)⟩⟩

instance : Neg Limb := ⟨fun a => ⟨do Fe.neg (← a.get)⟩⟩

instance : Mul Limb := ⟨fun a b => ⟨do Fe.mul (← a.get) (← b.get)⟩⟩

instance : Zero Limb := ⟨⟨some ⟨0, 0, 0, 0, 0⟩⟩⟩

instance : One Limb := ⟨⟨some ⟨1, 0, 0, 0, 0⟩⟩⟩

/-- The constants are those of `backend/serial/u64/constants.rs`. -/
instance : FE Limb where
  sq a := ⟨do Fe.pow2k 1 (← a.get)⟩
  sq2 a := ⟨do Fe.square2 (← a.get)⟩
  pow2k k a := ⟨do Fe.pow2k k (← a.get)⟩
  ofNat n := ⟨some (Fe.ofNat n)⟩
  toNat a := match a.get.bind Fe.toBytes with
    | some b => Codec.leVal b
    | none => 0
  d := ⟨some ⟨929955233495203, 466365720129213, 1662059464998953, 2033849074728123, 1442794654840575⟩⟩
  d2 := ⟨some ⟨1859910466990425, 932731440258426, 1072319116312658, 1815898335770999, 633789495995903⟩⟩
  sqrtM1 := ⟨some ⟨1718705420411056, 234908883556509, 2233514472574048, 2117202627021982, 765476049583133⟩⟩
  baseX := ⟨some ⟨1738742601995546, 1146398526822698, 2070867633025821, 562264141797630, 587772402128613⟩⟩
  baseY := ⟨some ⟨1801439850948184, 1351079888211148, 450359962737049, 900719925474099, 1801439850948198⟩⟩
  baseT := ⟨some ⟨1841354044333475, 16398895984059, 755974180946558, 900171276175154, 1821297809914039⟩⟩

end Limb

end Verif.EdProj
