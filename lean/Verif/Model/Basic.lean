import Mathlib.Data.ZMod.Basic
import Mathlib.Algebra.Field.ZMod
import Mathlib.Algebra.Module.Defs
import Mathlib.Algebra.BigOperators.Group.List.Basic

/-!
# Outcomes, machine integers, randomness, byte strings

Shared vocabulary of the model.  Nothing here is specific to one Rust function, except where cited.
-/

namespace Verif

/-- Outcome of a Rust call: `Ok`, `Err`, a panic (also process abort on impossible allocations), or an
endless loop.  Models `Result<α, ε>` together with Rust's panic semantics. -/
inductive Res (ε : Type) (α : Type) where
  | ok (a : α)
  | err (e : ε)
  | panic
  | diverge
deriving DecidableEq, Repr

namespace Res
variable {ε ε' α β : Type}

/-- Sequencing: the `?` operator (and ordinary evaluation order for panics). -/
def bind (x : Res ε α) (f : α → Res ε β) : Res ε β :=
  match x with
  | ok a => f a
  | err e => err e
  | panic => panic
  | diverge => diverge

instance : Monad (Res ε) where
  pure := ok
  bind := bind

/-- `Result::unwrap` / `Result::expect`: an error becomes a panic. -/
def unwrap (x : Res ε α) : Res ε' α :=
  match x with
  | ok a => ok a
  | err _ => panic
  | panic => panic
  | diverge => diverge

/-- `if x.is_err() { return Err(e) }`: any error is replaced by `e`; panics still propagate. -/
def orErr (x : Res ε α) (e : ε') : Res ε' α :=
  match x with
  | ok a => ok a
  | err _ => err e
  | panic => panic
  | diverge => diverge

/-- `Option::ok_or(e)?`. -/
def ofOption (o : Option α) (e : ε) : Res ε α :=
  match o with
  | some a => ok a
  | none => err e

/-- `Option::unwrap`. -/
def unwrapOpt (o : Option α) : Res ε α :=
  match o with
  | some a => ok a
  | none => panic

/-- The call returned `Ok`. -/
def isOk (x : Res ε α) : Prop := ∃ a, x = ok a

end Res

/-- Build profile: `checked` = integer overflow checks on (debug builds), `wrapping` = off
(`[profile.release]` of /repo/Cargo.toml:25-26 sets only `opt-level`, so release builds wrap).
The two wrapping modes differ only in how `ark_poly`'s `DensePolynomial::rand(d, _)` bounds its loop:
`0..(d + 1)` (`wrapping`) or `0..=d` (`wrappingIncl`); the dependency's source is not part of /repo, so
theorems are proved for both. -/
inductive Mode where
  | checked
  | wrapping
  | wrappingIncl
deriving DecidableEq, Repr

/-- `a - b` on `u64`/`usize` (64-bit targets). Arguments are below `2^64`. -/
def subU64 {ε : Type} (m : Mode) (a b : ℕ) : Res ε ℕ :=
  if b ≤ a then .ok (a - b)
  else match m with
    | .checked => .panic
    | _ => .ok ((a + 2 ^ 64 - b) % 2 ^ 64)

/-- `a + b` on `u64`/`usize`. Arguments are below `2^64`. -/
def addU64 {ε : Type} (m : Mode) (a b : ℕ) : Res ε ℕ :=
  if a + b < 2 ^ 64 then .ok (a + b)
  else match m with
    | .checked => .panic
    | _ => .ok ((a + b) % 2 ^ 64)

/-- `w1 + w2` on `u64` weights (/repo/src/modified_scrape/share.rs:117). -/
def addWeight {ε : Type} (m : Mode) (a b : UInt64) : Res ε UInt64 :=
  if a.toNat + b.toNat < 2 ^ 64 then .ok (a + b)
  else match m with
    | .checked => .panic
    | _ => .ok (a + b)

/-- Slice/Vec indexing `l[i]`: panics when out of range. -/
def idx {ε α : Type} (l : List α) (i : ℕ) : Res ε α :=
  match l[i]? with
  | some a => .ok a
  | none => .panic

/-- A random generator as seen by this crate: an arbitrary infinite stream of scalars; `F::rand(rng)`
returns the next one. (How arkworks derives a scalar from generator output is not modelled.) -/
abbrev Rng (r : ℕ) : Type := ℕ → ZMod r

/-- The generator after `k` further draws. -/
def Rng.drop {r : ℕ} (g : Rng r) (k : ℕ) : Rng r := fun i => g (k + i)

/-- `P.mul(s.into_repr()).into_affine()`: multiplication of a point by the canonical integer
representative of a scalar. (Projective/affine conversions are the identity in the model.) -/
def mulRepr {r : ℕ} {G : Type} [AddCommGroup G] (P : G) (s : ZMod r) : G := s.val • P

/-- `x.inverse().unwrap()` on scalars: panics on zero. -/
def invUnwrap {ε : Type} {r : ℕ} [Fact r.Prime] (x : ZMod r) : Res ε (ZMod r) :=
  if x = 0 then .panic else .ok x⁻¹

/-- `[u8; n]`. -/
abbrev Bytes (n : ℕ) : Type := {l : List UInt8 // l.length = n}

/-- `for x in l { acc = f(acc, x)?; }` — a loop whose body may fail. -/
def loop {ε σ α : Type} (f : σ → α → Res ε σ) : σ → List α → Res ε σ
  | s, [] => .ok s
  | s, x :: xs =>
    match f s x with
    | .ok s' => loop f s' xs
    | .err e => .err e
    | .panic => .panic
    | .diverge => .diverge

/-- `l.iter().map(f).collect::<Result<Vec<_>, _>>()`: stops at the first failure. -/
def collect {ε α β : Type} (f : α → Res ε β) : List α → Res ε (List β)
  | [] => .ok []
  | x :: xs =>
    match f x with
    | .ok y =>
      match collect f xs with
      | .ok ys => .ok (y :: ys)
      | .err e => .err e
      | .panic => .panic
      | .diverge => .diverge
    | .err e => .err e
    | .panic => .panic
    | .diverge => .diverge

/-- The integer range `1..=n`. -/
def range1 (n : ℕ) : List ℕ := (List.range n).map (· + 1)

end Verif
