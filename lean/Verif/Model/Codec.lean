import Verif.Model.Basic
import Verif.Model.BMap

/-!
# `ark-serialize` 0.2 on byte lists

`CanonicalSerialize`/`CanonicalDeserialize` for the primitive and container types the crate's `derive`s rely on.
-/

namespace Verif

/-- `ark_serialize::SerializationError` (variants that can occur here). -/
inductive SerError where
  | ioError       -- reader exhausted
  | invalidData   -- bytes do not denote a value (e.g. point not on curve / not in subgroup)
deriving DecidableEq, Repr

/-- A type's `serialize` and `deserialize`. `dec` returns the value and the unread rest of the reader. -/
structure Codec (α : Type) where
  enc : α → List UInt8
  dec : List UInt8 → Res SerError (α × List UInt8)

namespace Codec
variable {α β γ V : Type}

/-- `u8`. -/
def u8 : Codec UInt8 where
  enc b := [b]
  dec
    | [] => .err .ioError
    | b :: rest => .ok (b, rest)

/-- Little-endian bytes of a natural number, `n` of them. -/
def leBytes : ℕ → ℕ → List UInt8
  | 0, _ => []
  | n + 1, x => UInt8.ofNat (x % 256) :: leBytes n (x / 256)

/-- Value of a little-endian byte string. -/
def leVal : List UInt8 → ℕ
  | [] => 0
  | b :: l => b.toNat + 256 * leVal l

/-- `u64`/`usize`: 8 little-endian bytes (`usize` is written as `u64`). The model uses `ℕ`; values are below `2^64`. -/
def u64 : Codec ℕ where
  enc x := leBytes 8 x
  dec l := if l.length < 8 then .err .ioError else .ok (leVal (l.take 8), l.drop 8)

/-- `u64` weights. -/
def weight : Codec UInt64 where
  enc w := leBytes 8 w.toNat
  dec l := if l.length < 8 then .err .ioError else .ok (UInt64.ofNat (leVal (l.take 8)), l.drop 8)

/-- Tuples and derived structs: fields in declaration order. -/
def prod (a : Codec α) (b : Codec β) : Codec (α × β) where
  enc x := a.enc x.1 ++ b.enc x.2
  dec l := do
    let (x, l) ← a.dec l
    let (y, l) ← b.dec l
    .ok ((x, y), l)

/-- `PhantomData`: nothing on the wire. -/
def phantom : Codec Unit where
  enc _ := []
  dec l := .ok ((), l)

/-- Decode `n` elements in sequence. -/
def decN (a : Codec α) : ℕ → List UInt8 → Res SerError (List α × List UInt8)
  | 0, l => .ok ([], l)
  | n + 1, l => do
    let (x, l) ← a.dec l
    let (xs, l) ← decN a n l
    .ok (x :: xs, l)

/-- `Vec<T>`: `u64` length, then the elements. -/
def vec (a : Codec α) : Codec (List α) where
  enc xs := u64.enc xs.length ++ (xs.map a.enc).flatten
  dec l := do
    let (n, l) ← u64.dec l
    decN a n l

/-- `BTreeMap<usize, V>`: `u64` length, then key/value pairs in key order; decoding inserts pairs as they come. -/
def bmap (a : Codec V) : Codec (BMap V) where
  enc m := u64.enc m.entries.length ++ (m.entries.map (prod u64 a).enc).flatten
  dec l := do
    let (n, l) ← u64.dec l
    let (kvs, l) ← decN (prod u64 a) n l
    .ok (BMap.ofList kvs, l)

/-- Transport along a struct/tuple isomorphism (what `derive` generates for a struct). -/
def iso (a : Codec α) (mk : α → β) (un : β → α) : Codec β where
  enc x := a.enc (un x)
  dec l := do
    let (x, l) ← a.dec l
    .ok (mk x, l)

/-- Round trip: decoding an encoding followed by anything returns the value and leaves the rest. -/
def Lawful (a : Codec α) : Prop := ∀ x rest, a.dec (a.enc x ++ rest) = .ok (x, rest)

/-- All encodings have the same length (true of curve points and scalars, whose serialization is fixed-size). -/
def Fixed (a : Codec α) (n : ℕ) : Prop := ∀ x, (a.enc x).length = n

end Codec
end Verif
