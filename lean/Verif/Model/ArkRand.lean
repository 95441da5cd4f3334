import Verif.Model.ArkHash
import Verif.Model.Pvss

/-!
# Random field elements and points of BLS12-381, as in `ark-ff`/`ark-ec` 0.2

What `Scalar::<E>::rand(rng)` (e.g. /repo/src/signature/schnorr/mod.rs:40, /repo/src/nizk/dlk/mod.rs:63) and
`EncGroupP::<E>::rand(rng)`, `ComGroupP::<E>::rand(rng)` (/repo/src/modified_scrape/srs.rs:29-31) do with `E = Bls12_381`.  The source
of these crates is not in /repo; the definitions follow their published source.

The generator is a sequence of 32-bit words, as in the block generators of `rand` (`thread_rng`, `StdRng`): a `u64` takes two words, low
word first, a `bool` the sign of one word.  A program that draws from it is given by the words it reads and what it returns.
-/

namespace Verif

open WeierstrassCurve

/-- `R l a`: started on a generator whose next words are `l`, the program reads exactly `l` and returns `a`. -/
abbrev Sampler (α : Type) : Type := List UInt32 → α → Prop

namespace Sampler

variable {α β : Type}

/-- Returns without reading. -/
def ret (a : α) : Sampler α := fun l b => l = [] ∧ a = b

/-- One program, then another one that may depend on the result. -/
def bind (R : Sampler α) (S : α → Sampler β) : Sampler β := fun l b => ∃ l₁ a l₂, R l₁ a ∧ S a l₂ b ∧ l₁ ++ l₂ = l

/-- Reads `n` words and computes. -/
def block (n : ℕ) (D : List UInt32 → α) : Sampler α := fun l a => l.length = n ∧ D l = a

/-- `loop { if let Some(a) = body { return a; } }` -/
inductive loop (R : Sampler (Option α)) : Sampler α
  | done {l : List UInt32} {a : α} : R l (some a) → loop R l a
  | again {l₁ l₂ : List UInt32} {a : α} : R l₁ none → loop R l₂ a → loop R (l₁ ++ l₂) a

/-- `(0..n).map(|_| R).collect()` -/
def times (R : Sampler α) : ℕ → Sampler (List α)
  | 0 => ret []
  | n + 1 => bind R fun a => bind (times R n) fun as => ret (a :: as)

end Sampler

/-- The number given by words, least significant first. -/
def wordVal : List UInt32 → ℕ
  | [] => 0
  | w :: l => w.toNat + 2 ^ 32 * wordVal l

/-- `Standard: Distribution<Fp>`: as many limbs as the modulus needs, all bits of the top limb above the modulus cleared
(`REPR_SHAVE_BITS`), until the number is below the modulus; it is taken as a Montgomery representation. -/
def fpRand (p n bits : ℕ) : Sampler (ZMod p) :=
  .loop (.block n fun l =>
    if wordVal l % 2 ^ bits < p then some ((wordVal l % 2 ^ bits : ℕ) * ((2 ^ (32 * n) : ℕ) : ZMod p)⁻¹) else none)

/-- `Fr::rand`: four limbs, one bit cleared. -/
def frRand : Sampler (ZMod blsR) := fpRand blsR 8 255

/-- `Fq::rand`: six limbs, three bits cleared. -/
def fqRand : Sampler BlsFq := fpRand blsP 12 381

/-- `Fq2::rand`: `c0`, then `c1`. -/
def fq2Rand : Sampler BlsFq2 := .bind fqRand fun c0 => .bind fqRand fun c1 => .ret ⟨c0, c1⟩

/-- `rng.gen::<bool>()` -/
def boolRand : Sampler Bool := .block 1 fun l => decide (2 ^ 31 ≤ wordVal l)

open Classical in
/-- `GroupAffine::get_point_from_x`. (The test `Nonsingular` always succeeds on the curves used.) -/
noncomputable def pointFromX {F : Type} [Field F] (lt : F → F → Prop) (a b x : F) (greatest : Bool) :
    Option (swCurve a b).Point :=
  if hs : ∃ y, y ^ 2 = x ^ 3 + a * x + b then
    let y := if Xor (lt hs.choose (-hs.choose)) (greatest = true) then hs.choose else -hs.choose
    if h : (swCurve a b).Nonsingular x y then some (.some x y h) else none
  else none

/-- `Standard: Distribution<GroupProjective>`: a random coordinate and a random sign until there is such a point, which is then
multiplied with the cofactor. -/
noncomputable def groupRand {F : Type} [Field F] [DecidableEq F] (fRand : Sampler F) (lt : F → F → Prop) (a b : F) (h : ℕ) :
    Sampler (swCurve a b).Point :=
  .bind (.loop (.bind fRand fun x => .bind boolRand fun greatest => .ret (pointFromX lt a b x greatest))) fun P => .ret (h • P)

/-- `G1Projective::rand` -/
noncomputable def g1Rand : Sampler blsE1.Point := groupRand fqRand wireFq.lt 0 4 blsH1

/-- `G2Projective::rand` -/
noncomputable def g2Rand : Sampler blsE2.Point := groupRand fq2Rand wireFq2.lt 0 blsB2 blsH2

/-- `SRS::setup`. srs.rs:27-33 -/
noncomputable def srsRand : Sampler (SRS blsE1.Point blsE2.Point) :=
  .bind g1Rand fun g1 => .bind g2Rand fun g2 => .bind g2Rand fun g2' => .ret (SRS.setup g1 g2 g2')

end Verif
