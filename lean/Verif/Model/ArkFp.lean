import Verif.Model.Ark

/-!
# Arithmetic of the prime fields as in `ark-ff` 0.2

The model of the crate computes in `ZMod p`.  The crate computes with `Fp256` and `Fp384` of `ark-ff` 0.2 (`fields/macros.rs`,
`fields/arithmetic.rs`, `biginteger/macros.rs`; the source is not in /repo, the definitions follow the published one): four or six
limbs of 64 bits, the least significant first, holding the Montgomery form `x 2^(64 N) mod p`.  Scalars and coordinates are added,
multiplied and inverted everywhere in the crate, for example /repo/src/modified_scrape/poly.rs:44-52,
/repo/src/nizk/dlk/mod.rs:82; `inverse` is called at /repo/src/modified_scrape/decryption.rs:21 and
/repo/src/modified_scrape/poly.rs:48, 84, 123, 162, 202, `Scalar::from` at /repo/src/modified_scrape/node.rs:79 and
/repo/src/modified_scrape/aggregator.rs:222, and `into_repr` stands before every multiplication of a point, for example
/repo/src/modified_scrape/node.rs:97.  Arrays are lists; where the code writes into an array at shifting positions, the definitions
here pass on the part that is still to be changed.
-/

namespace Verif.ArkFp

/-- `FpParameters`: `MODULUS`, `INV = -MODULUS⁻¹ mod 2^64`, `R2 = 2^(128 N) mod MODULUS`. -/
structure Params where
  modulus : List ℕ
  inv : ℕ
  r2 : List ℕ

/-- `add_nocarry`: `adc` from limb to limb. -/
def adcLoop : ℕ → List ℕ → List ℕ → List ℕ
  | c, a :: as, b :: bs => (a + b + c) % 2 ^ 64 :: adcLoop ((a + b + c) / 2 ^ 64) as bs
  | _, _, _ => []

/-- `sub_noborrow`: `sbb` from limb to limb. -/
def sbbLoop : ℕ → List ℕ → List ℕ → List ℕ
  | w, a :: as, b :: bs =>
    (2 ^ 64 + a - b - w) % 2 ^ 64 :: sbbLoop (if (2 ^ 64 + a - b - w) / 2 ^ 64 = 0 then 1 else 0) as bs
  | _, _, _ => []

/-- Comparison from the first limb on. -/
def cmpLoop : List ℕ → List ℕ → Ordering
  | a :: as, b :: bs => if a < b then .lt else if b < a then .gt else cmpLoop as bs
  | _, _ => .eq

/-- `BigInteger::cmp`: the most significant limb first. -/
def cmp (a b : List ℕ) : Ordering := cmpLoop a.reverse b.reverse

/-- `is_even`. -/
def isEven (a : List ℕ) : Bool := a.headD 0 % 2 = 0

/-- `div2`: every limb is shifted, the lowest bit of the next one comes in at the top. -/
def div2 : List ℕ → List ℕ
  | [] => []
  | a :: as => (a / 2 + 2 ^ 63 * (as.headD 0 % 2)) :: div2 as

/-- `is_zero` of a big integer. -/
def isZero (a : List ℕ) : Bool := a.all (· = 0)

/-- `BigInteger::from(1)`. -/
def one (n : ℕ) : List ℕ := 1 :: List.replicate (n - 1) 0

variable (P : Params)

/-- `reduce`. -/
def reduce (a : List ℕ) : List ℕ := if cmp a P.modulus = .lt then a else sbbLoop 0 a P.modulus

/-- `add_assign`. -/
def add (a b : List ℕ) : List ℕ := reduce P (adcLoop 0 a b)

/-- `sub_assign`. -/
def sub (a b : List ℕ) : List ℕ := sbbLoop 0 (if cmp b a = .gt then adcLoop 0 a P.modulus else a) b

/-- `neg`. -/
def neg (a : List ℕ) : List ℕ := if isZero a then a else sbbLoop 0 P.modulus a

/-- The inner loop of `mul_assign`, for the limb `b` of the second factor: `mac_with_carry` twice. -/
def mulLoop (b k : ℕ) : ℕ → ℕ → List ℕ → List ℕ → List ℕ → List ℕ
  | c1, c2, r :: rs, a :: as, m :: ms =>
    let t := r + a * b + c1
    let s := t % 2 ^ 64 + k * m + c2
    s % 2 ^ 64 :: mulLoop b k (t / 2 ^ 64) (s / 2 ^ 64) rs as ms
  | c1, c2, _, _, _ => [c1 + c2]

/-- The outer loop of `mul_assign`. -/
def mulRound (a r : List ℕ) (b : ℕ) : List ℕ :=
  match r, a, P.modulus with
  | r0 :: rs, a0 :: as, m0 :: ms =>
    let t := r0 + a0 * b
    let k := t % 2 ^ 64 * P.inv % 2 ^ 64
    mulLoop b k (t / 2 ^ 64) ((t % 2 ^ 64 + k * m0) / 2 ^ 64) rs as ms
  | _, _, _ => []

/-- `mul_assign`, for moduli with a free bit at the top (no carry leaves the last limb). -/
def mul (a b : List ℕ) : List ℕ := reduce P (b.foldl (mulRound P a) (List.replicate P.modulus.length 0))

/-- `mul2`: the top bit of a limb goes into the next one. -/
def mul2Loop : ℕ → List ℕ → List ℕ
  | c, a :: as => (2 * a % 2 ^ 64 + c) :: mul2Loop (a / 2 ^ 63) as
  | _, [] => []

/-- `double_in_place`. -/
def double (a : List ℕ) : List ℕ := reduce P (mul2Loop 0 a)

/-- A row of products in `square_in_place`: `mac_with_carry` of `a` times the later limbs, the carry into the next limb. -/
def sqRow (a : ℕ) : ℕ → List ℕ → List ℕ → List ℕ
  | c, r :: rs, b :: bs => (r + a * b + c) % 2 ^ 64 :: sqRow a ((r + a * b + c) / 2 ^ 64) rs bs
  | c, _, _ => [c]

/-- The products `a_i a_j` for `i < j`, from limb `2 i + 1` on; limbs `2 i + 1` and `2 i + 2` are not changed by later rows. -/
def sqRows : List ℕ → List ℕ → List ℕ
  | r, a :: b :: bs =>
    match sqRow a 0 r (b :: bs) with
    | x :: y :: rs => x :: y :: sqRows rs (b :: bs)
    | _ => []
  | _, _ => []

/-- The squares `a_i²` are added at limb `2 i`. -/
def sqDiag : ℕ → List ℕ → List ℕ → List ℕ
  | c, x :: y :: rs, a :: as =>
    let t := x + a * a + c
    let s := y + t / 2 ^ 64
    t % 2 ^ 64 :: s % 2 ^ 64 :: sqDiag (s / 2 ^ 64) rs as
  | _, _, _ => []

/-- The inner loop of the reduction in `square_in_place`, followed by the `adc` with `_carry2`. -/
def sqRedcLoop (k c2 : ℕ) : ℕ → List ℕ → List ℕ → List ℕ × ℕ
  | c, r :: rs, m :: ms =>
    let rest := sqRedcLoop k c2 ((r + k * m + c) / 2 ^ 64) rs ms
    ((r + k * m + c) % 2 ^ 64 :: rest.1, rest.2)
  | c, r :: rs, [] => ((r + c2 + c) % 2 ^ 64 :: rs, (r + c2 + c) / 2 ^ 64)
  | c, [], _ => ([], c)

/-- The outer loop of the reduction. -/
def sqRedc : ℕ → List ℕ × ℕ → List ℕ × ℕ
  | 0, s => s
  | n + 1, (r0 :: rs, c2) =>
    match P.modulus with
    | m0 :: ms =>
      let k := r0 * P.inv % 2 ^ 64
      sqRedc n (sqRedcLoop k c2 ((r0 + k * m0) / 2 ^ 64) rs ms)
    | [] => (r0 :: rs, c2)
  | _ + 1, ([], c2) => ([], c2)

/-- `square_in_place` for at least two limbs. -/
def square (a : List ℕ) : List ℕ :=
  let off := 0 :: (sqRows (List.replicate (a.length - 1) 0) a ++ [0])
  reduce P (sqRedc P a.length (sqDiag 0 (mul2Loop 0 off) a, 0)).1

/-- The inner loop of `into_repr`. -/
def redcLoop (k : ℕ) : ℕ → List ℕ → List ℕ → List ℕ
  | c, r :: rs, m :: ms => (r + k * m + c) % 2 ^ 64 :: redcLoop k ((r + k * m + c) / 2 ^ 64) rs ms
  | c, _, _ => [c]

/-- The outer loop of `into_repr`; the array is used as a ring, which starts at limb `i` in round `i`. -/
def redcRound (r : List ℕ) : List ℕ :=
  match r, P.modulus with
  | r0 :: rs, m0 :: ms =>
    let k := r0 * P.inv % 2 ^ 64
    redcLoop k ((r0 + k * m0) / 2 ^ 64) rs ms
  | _, _ => []

/-- `into_repr`. -/
def intoRepr (a : List ℕ) : List ℕ := (redcRound P)^[P.modulus.length] a

/-- `from_repr`. -/
def fromRepr (a : List ℕ) : Option (List ℕ) :=
  if isZero a then some a else if cmp a P.modulus = .lt then some (mul P a P.r2) else none

/-- `while u.is_even()` in `inverse`; `u` halvings are enough for the number `u`. -/
def halve : ℕ → List ℕ → List ℕ → List ℕ × List ℕ
  | 0, u, b => (u, b)
  | fuel + 1, u, b =>
    if isEven u then halve fuel (div2 u) (if isEven b then div2 b else div2 (adcLoop 0 b P.modulus)) else (u, b)

/-- The loop of `inverse`; `none` if it is not left within `fuel` rounds, each with at most `fuel0` halvings. -/
def invLoop (fuel0 : ℕ) : ℕ → List ℕ → List ℕ → List ℕ → List ℕ → Option (List ℕ)
  | 0, _, _, _, _ => none
  | fuel + 1, u, v, b, c =>
    if u = one P.modulus.length then some b
    else if v = one P.modulus.length then some c
    else
      let ub := halve P fuel0 u b
      let vc := halve P fuel0 v c
      if cmp vc.1 ub.1 = .lt then invLoop fuel0 fuel (sbbLoop 0 ub.1 vc.1) vc.1 (sub P ub.2 vc.2) vc.2
      else invLoop fuel0 fuel ub.1 (sbbLoop 0 vc.1 ub.1) ub.2 (sub P vc.2 ub.2)

/-- `inverse`: binary Euclid, started with `R2`; `None` for zero. The loop has no bound in the code; `2^(64 N + 1)` rounds. -/
def inverse (a : List ℕ) : Option (List ℕ) :=
  if isZero a then none
  else invLoop P (2 ^ (64 * P.modulus.length)) (2 ^ (64 * P.modulus.length + 1)) a P.modulus P.r2 (List.replicate P.modulus.length 0)

/-- `FrParameters` of ark-bls12-381. -/
def fr : Params where
  modulus := [0xffffffff00000001, 0x53bda402fffe5bfe, 0x3339d80809a1d805, 0x73eda753299d7d48]
  inv := 0xfffffffeffffffff
  r2 := [0xc999e990f3f29c6d, 0x2b6cedcb87925c23, 0x5d314967254398f, 0x748d9d99f59ff11]

/-- `FqParameters` of ark-bls12-381. -/
def fq : Params where
  modulus := [0xb9feffffffffaaab, 0x1eabfffeb153ffff, 0x6730d2a0f6b0f624, 0x64774b84f38512bf, 0x4b1ba7b6434bacd7, 0x1a0111ea397fe69a]
  inv := 0x89f3fffcfffcfffd
  r2 := [0xf4df1f341c341746, 0xa76e6a609d104f1, 0x8de5476c4c95b6d5, 0x67eb88a9939d83c0, 0x9a793e85b519952d, 0x11988fe592cae3aa]

end Verif.ArkFp
