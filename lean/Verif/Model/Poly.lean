import Verif.Model.Basic
import Mathlib.Data.List.DropRight

/-!
# Polynomials, degree check, interpolation — /repo/src/modified_scrape/poly.rs
and the error type /repo/src/modified_scrape/errors.rs
-/

namespace Verif

/-- `PVSSError`. errors.rs:8-77 (the variants that carry data of external error types are omitted; none of
them is produced by modelled code). -/
inductive PVSSError where
  | InsufficientEvaluationsError
  | DifferentPointsEvalsError
  | DecompGenerationError
  | InvalidParticipantId (id : ℕ)
  | MismatchedCommitsEncryptionsParticipantsError (encs comms n : ℕ)
  | DualCodeError
  | GSCheckError
  | EmptySharesVectorError
  | InsufficientIdsError
  | InsufficientCommitsInShareError (a b : ℕ)
  | InsufficientEncryptionsInShareError (a b : ℕ)
  | EmptyEncryptionsVectorError
  | MismatchedCommitmentsError (a b : ℕ)
  | MismatchedEncryptionsError (a b : ℕ)
  | MismatchedCommitmentsEncryptionsError (a b : ℕ)
  | TranscriptDifferentConfig (d1 d2 n1 n2 : ℕ)
  | TranscriptDifferentCommitments
  | DecompProofVerificationError
  | InsufficientDecryptionsError (a b : ℕ)
  | LengthMismatchError
  | EncryptionCorrectnessError
  | DecompositionInTranscriptError
  | AggregationReconstructionMismatchError
  | EdDSAInvalidSignatureError
  | InvalidSignedProofError
  | NIZKProofDoesNotVerifyError
  | RatioIncorrect
  | EvaluationDomainError
  | DifferentSRS
deriving DecidableEq, Repr

variable {r : ℕ} [Fact r.Prime]

/-- `DensePolynomial::from_coefficients_vec`: trailing zero coefficients are popped (ark-poly 0.2). -/
def trim (l : List (ZMod r)) : List (ZMod r) := l.rdropWhile (· = 0)

/-- Number of coefficients drawn by `DensePolynomial::rand(d, _)`: `d + 1`, computed in `usize` unless the loop is
written `0..=d`. -/
def polyCount {ε : Type} (m : Mode) (d : ℕ) : Res ε ℕ :=
  match m with
  | .wrappingIncl => .ok (d + 1)
  | m => addU64 m d 1

/-- `DensePolynomial::rand(d, rng)` (ark-poly 0.2): draws `d + 1` coefficients, low degree first. More than
`isize::MAX` bytes of coefficients (32 bytes each for BLS12-381) cannot be allocated: the process panics/aborts.
`d + 1` overflows for `d = 2^64-1` (see `Mode`). Returns the trimmed coefficients and the advanced generator. -/
def polyRand {ε : Type} (m : Mode) (rng : Rng r) (d : ℕ) : Res ε (List (ZMod r) × Rng r) := do
  let cnt ← polyCount m d
  if 2 ^ 63 - 1 < cnt * 32 then .panic
  else .ok (trim ((List.range cnt).map rng), rng.drop cnt)

/-- `DensePolynomial::evaluate` (Horner). -/
def polyEval (c : List (ZMod r)) (x : ZMod r) : ZMod r := c.foldr (fun a acc => acc * x + a) 0

section Degree
variable {G : Type} [AddCommGroup G] [DecidableEq G]

/-- The dual-code coefficient of position `i`: `poly(i) * ∏_{j≠i} (i-j)^{-1}`. poly.rs:43-50 -/
def cperp (poly : List (ZMod r)) (num i : ℕ) : Res PVSSError (ZMod r) :=
  loop (fun (acc : ZMod r) (j : ℕ) =>
      if i ≠ j then do
        let inv ← invUnwrap ((i : ZMod r) - (j : ZMod r))
        .ok (acc * inv)
      else .ok acc)
    (polyEval poly (i : ZMod r)) (range1 num)

/-- `ensure_degree`. poly.rs:24-60. Returns the advanced generator on success. -/
def ensureDegree (m : Mode) (rng : Rng r) (evaluations : List G) (degree : ℕ) :
    Res PVSSError (Rng r) :=
  let num := evaluations.length
  if num < degree then .err .InsufficientEvaluationsError
  else do
    let a ← subU64 m num degree
    let d ← subU64 m a 2
    let (poly, rng) ← polyRand m rng d
    let sum ← loop (fun (s : G) (i : ℕ) => do
        let c ← cperp poly num i
        let ev ← idx evaluations (i - 1)
        .ok (s + mulRepr ev c))
      0 (range1 num)
    if sum ≠ 0 then .err .DualCodeError else .ok rng

/-- Lagrange coefficient at 0 of node `j` among the nodes `x 0, …, x degree`:
`∏_{k≠j} x_k * (x_k - x_j)^{-1}`. poly.rs:79-86, 118-125, 157-164, 197-204. `x` is the (possibly panicking)
access to the `k`-th node. -/
def lagCoeff (x : ℕ → Res PVSSError (ZMod r)) (degree j : ℕ) : Res PVSSError (ZMod r) := do
  let xj ← x j
  loop (fun (prod : ZMod r) (k : ℕ) =>
      if j ≠ k then do
        let xk ← x k
        let inv ← invUnwrap (xk - xj)
        .ok (prod * (xk * inv))
      else .ok prod)
    1 (List.range (degree + 1))

/-- `Scalar::from(k + 1)` with the `u64` addition of the given build mode. poly.rs:79,83 -/
def nodeSimple (m : Mode) (k : ℕ) : Res PVSSError (ZMod r) := do
  let k1 ← addU64 m k 1
  .ok (k1 : ZMod r)

/-- `lagrange_interpolation_simple`. poly.rs:64-93 (group G2). -/
def lagrangeSimple (m : Mode) (evals : List G) (degree : ℕ) : Res PVSSError G := do
  let need ← addU64 m degree 1
  if evals.length < need then .err .InsufficientEvaluationsError
  else
    loop (fun (sum : G) (j : ℕ) => do
        let prod ← lagCoeff (r := r) (nodeSimple m) degree j
        let ev ← idx evals j
        .ok (sum + mulRepr ev prod))
      0 (List.range (degree + 1))

/-- `lagrange_interpolation_g1`. poly.rs:98-132. -/
def lagrangeG1 (m : Mode) (evals : List G) (points : List (ZMod r)) (degree : ℕ) : Res PVSSError G := do
  let need ← addU64 m degree 1
  if evals.length < need then .err .InsufficientEvaluationsError
  else if evals.length ≠ points.length then .err .DifferentPointsEvalsError
  else
    loop (fun (sum : G) (j : ℕ) => do
        let prod ← lagCoeff (idx points) degree j
        let ev ← idx evals j
        .ok (sum + mulRepr ev prod))
      0 (List.range (degree + 1))

/-- `lagrange_interpolation_g2`. poly.rs:137-171. -/
def lagrangeG2 (m : Mode) (evals : List G) (points : List (ZMod r)) (degree : ℕ) : Res PVSSError G := do
  let need ← addU64 m degree 1
  if evals.length < need then .err .InsufficientEvaluationsError
  else if evals.length ≠ points.length then .err .DifferentPointsEvalsError
  else
    loop (fun (sum : G) (j : ℕ) => do
        let prod ← lagCoeff (idx points) degree j
        let ev ← idx evals j
        .ok (sum + mulRepr ev prod))
      0 (List.range (degree + 1))

end Degree

/-- `Scalar::from(points[k])`. poly.rs:197, 201 -/
def nodeU64 (points : List ℕ) (k : ℕ) : Res PVSSError (ZMod r) := do
  let p ← idx points k
  .ok (p : ZMod r)

/-- `lagrange_interpolation_gt`. poly.rs:176-211; `pow(prod.into_repr())` is the power by the canonical
integer. -/
def lagrangeGt {K : Type} [CommMonoid K] (m : Mode) (evals : List K) (points : List ℕ) (degree : ℕ) :
    Res PVSSError K := do
  let need ← addU64 m degree 1
  if evals.length < need then .err .InsufficientEvaluationsError
  else if evals.length ≠ points.length then .err .DifferentPointsEvalsError
  else
    loop (fun (result : K) (j : ℕ) => do
        let prod ← lagCoeff (r := r) (nodeU64 points) degree j
        let ev ← idx evals j
        .ok (result * ev ^ prod.val))
      1 (List.range (degree + 1))

end Verif
