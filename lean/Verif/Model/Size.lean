import Verif.Model.Pvss

/-!
# `serialized_size` of the derived types

`#[derive(CanonicalSerialize)]` generates `serialized_size` as the sum over the fields; `Vec` and `BTreeMap` add 8 for the
length prefix (ark-serialize 0.2). The sizes of curve points and scalars (`n1`, `n2`, `nf`) are parameters: both are
constants of the curve.
-/

namespace Verif

variable {r : ℕ} {G1 G2 : Type}

/-- `serialized_size` of `u64`/`usize`. -/
def sizeU64 : ℕ := 8

/-- `serialized_size` of `Vec<T>` for a type of constant size: 8, then the items. -/
def sizeVec {α : Type} (size : α → ℕ) (l : List α) : ℕ := sizeU64 + (l.map size).sum

/-- derive for `SRS`. srs.rs:17-22 -/
def SRS.serializedSize (n1 n2 : ℕ) (_ : SRS G1 G2) : ℕ := n1 + n2 + n2

/-- derive for `Config`. config.rs:9-14 -/
def Config.serializedSize (n1 n2 : ℕ) (c : Config G1 G2) : ℕ := c.srs.serializedSize n1 n2 + sizeU64 + sizeU64

/-- derive for `Participant` (`PhantomData` has size 0). participant.rs:25-35 -/
def Participant.serializedSize (n1 : ℕ) (p : Participant G1) : ℕ :=
  0 + sizeU64 + n1 + serializedSizeBytes p.pkEd.bytes

/-- derive for `PVSSCore`. pvss.rs:10-17 -/
def PVSSCore.serializedSize (n1 n2 : ℕ) (c : PVSSCore G1 G2) : ℕ :=
  sizeVec (fun _ => n1) c.encs + sizeVec (fun _ => n2) c.comms

/-- derive for `DecompProof` (`proof` is the tuple point, scalar, scalar). decomp.rs:34-38 -/
def DecompProof.serializedSize (n2 nf : ℕ) (_ : DecompProof r G2) : ℕ := (n2 + nf + nf) + n2

/-- derive for `SignedProof`. share.rs:21-28 -/
def SignedProof.serializedSize (n2 nf : ℕ) (p : SignedProof r G2) : ℕ :=
  p.decompProof.serializedSize n2 nf + p.signature.serializedSize

/-- derive for `PVSSShare`. share.rs:47-55 -/
def PVSSShare.serializedSize (n1 n2 nf : ℕ) (s : PVSSShare r G1 G2) : ℕ :=
  sizeU64 + s.core.serializedSize n1 n2 + s.signedProof.serializedSize n2 nf

/-- derive for `PVSSAggregatedShare`; the map's items are a key and a (signed proof, weight) tuple. share.rs:58-67 -/
def AggShare.serializedSize (n1 n2 nf : ℕ) (a : AggShare r G1 G2) : ℕ :=
  sizeU64 + sizeU64 + a.core.serializedSize n1 n2 +
    sizeVec (fun e : ℕ × (SignedProof r G2 × UInt64) => sizeU64 + (e.2.1.serializedSize n2 nf + sizeU64))
      a.contributions.entries

end Verif
