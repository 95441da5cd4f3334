import Verif.Model.EdDSA

/-!
# Derived traits of the EdDSA wrapper types — /repo/src/lib.rs

`Default` of `Digest`, `PublicKey` and `Signature`, and `Ord` of `PublicKey`, as `#[derive]` expands them.
-/

namespace Verif

/-- `[u8; n]::default()`: all zero. -/
def Bytes.zero (n : ℕ) : Bytes n := ⟨List.replicate n 0, by simp⟩

/-- `#[derive(Default)]` of `Digest`. lib.rs:46-47 -/
def Digest.default : Digest := ⟨Bytes.zero 32⟩

/-- `#[derive(Default)]` of `PublicKey`. lib.rs:121-122 -/
def PublicKey.default : PublicKey := ⟨Bytes.zero 32⟩

/-- `#[derive(Default)]` of `Signature`. lib.rs:263-267 -/
def Signature.default : Signature := ⟨Bytes.zero 32, Bytes.zero 32⟩

/-- `Ord::cmp` on slices: the first difference decides, then the length. -/
def cmpBytes : List UInt8 → List UInt8 → Ordering
  | [], [] => .eq
  | [], _ :: _ => .lt
  | _ :: _, [] => .gt
  | a :: as, b :: bs =>
    if a < b then .lt else if b < a then .gt else cmpBytes as bs

/-- `#[derive(Ord)]` of `PublicKey`; `PartialOrd` is derived alike. lib.rs:121-122 -/
def PublicKey.cmp (a b : PublicKey) : Ordering := cmpBytes a.bytes.1 b.bytes.1

end Verif
