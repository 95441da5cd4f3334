import Verif.Model.Pvss
import Verif.Model.Schnorr
import Verif.Model.Default

/-!
# Derived codecs and `Hash` of the remaining types

The wire formats of the proof systems' and of the Schnorr scheme's parameters, statements, proofs and signatures, and what
`std::hash::Hash` feeds a hasher.  Parameters with one field are that field in the model (Model/Nizk.lean, Model/Schnorr.lean).

`std::hash::Hash` is modelled as the byte string fed to the hasher; the hasher itself is the caller's.  How a point and a
scalar are fed (`ark-ec`, `ark-ff`) is a parameter.
-/

namespace Verif

variable {r : ℕ} {G H : Type}

/-! ## codecs -/

/-- derive for the parameters of knowledge proofs. nizk/dlk/srs.rs:8-11 -/
def DLK.srsCodec (c : Codec G) : Codec G := c.iso (fun g => g) (fun srs => srs)

/-- `type Statement = C`. nizk/dlk/mod.rs:30 -/
def DLK.statementCodec (c : Codec G) : Codec G := c

/-- `type Proof = (C, F, F)`: tuples are written in order. nizk/dlk/mod.rs:31 -/
def DLK.wire (c : Codec G) (fr : Codec (ZMod r)) : Codec (DLK.Proof r G) := c.prod (fr.prod fr)

/-- derive for the parameters of equality proofs. nizk/dleq/srs.rs:7-15 -/
def DLEQ.srsCodec (c1 : Codec G) (c2 : Codec H) : Codec (G × H) :=
  (c1.prod c2).iso (fun x => (x.1, x.2)) (fun srs => (srs.1, srs.2))

/-- `type Statement = (C1, C2)`. nizk/dleq/mod.rs:40 -/
def DLEQ.statementCodec (c1 : Codec G) (c2 : Codec H) : Codec (G × H) := c1.prod c2

/-- `type Proof = ((C1, C2), F, F)`. nizk/dleq/mod.rs:41 -/
def DLEQ.wire (c1 : Codec G) (c2 : Codec H) (fr : Codec (ZMod r)) : Codec (DLEQ.Proof r G H) :=
  (c1.prod c2).prod (fr.prod fr)

/-- derive for the parameters of Schnorr signatures. signature/schnorr/srs.rs:6-9 -/
def Schnorr.srsCodec (c : Codec G) : Codec G := c.iso (fun g => g) (fun srs => srs)

/-- `type Signature = (C, F)`. signature/schnorr/mod.rs:28 -/
def Schnorr.wire (c : Codec G) (fr : Codec (ZMod r)) : Codec (Schnorr.Sig r G) := c.prod fr

/-- The struct `Decomp` holds a `PhantomData` only. decomp.rs:28-31 -/
def Decomp.codec : Codec Unit := Codec.phantom.iso (fun _ => ()) (fun _ => ())

/-! ## `std::hash::Hash` -/

/-- What a value feeds the hasher. -/
abbrev HashFeed (α : Type) := α → List UInt8

/-- `impl Hash for [u8; n]`: as a slice, the length as `usize` (native byte order, little-endian on the targets of the crate),
then the bytes. -/
def Bytes.hashFeed {n : ℕ} : HashFeed (Bytes n) := fun b => Codec.leBytes 8 b.1.length ++ b.1

/-- `#[derive(Hash)]` of `Digest`. lib.rs:46-47 -/
def Digest.hashFeed : HashFeed Digest := fun d => Bytes.hashFeed d.bytes

/-- `#[derive(Hash)]` of `PublicKey`. lib.rs:121-122 -/
def PublicKey.hashFeed : HashFeed PublicKey := fun k => Bytes.hashFeed k.bytes

/-- `#[derive(Hash)]` of the parameters of knowledge proofs. nizk/dlk/srs.rs:8-11 -/
def DLK.srsHashFeed (pt : HashFeed G) : HashFeed G := fun srs => pt srs

/-- `#[derive(Hash)]` of the proof system `DLKProof`: its parameters. nizk/dlk/mod.rs:19-22 -/
def DLK.hashFeed (pt : HashFeed G) : HashFeed G := fun srs => DLK.srsHashFeed pt srs

/-- `impl Hash for DecompProof`: the proof (a tuple, in order), then the commitment. decomp.rs:60-65 -/
def DecompProof.hashFeed (pt : HashFeed G) (fr : HashFeed (ZMod r)) : HashFeed (DecompProof r G) := fun d =>
  (pt d.proof.1 ++ (fr d.proof.2.1 ++ fr d.proof.2.2)) ++ pt d.gs

end Verif
