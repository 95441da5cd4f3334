import Verif.Model.Curve

/-!
# NIZK proofs — /repo/src/nizk/dlk/mod.rs, /repo/src/nizk/dleq/mod.rs
-/

namespace Verif

/-- `NIZKError`. /repo/src/nizk/utils/errors.rs:7-18 (`SerializationError` is never produced: writing to a
`Vec` cannot fail). -/
inductive NIZKError where
  | SRSSetupError
  | DLKParseError
  | DLKVerify
  | DLEQVerify
deriving DecidableEq, Repr

variable {r : ℕ} [Fact r.Prime]

/-! ## Knowledge of discrete logarithm -/
namespace DLK

/-- `PERSONALIZATION = b"DLKNIZK"`. dlk/mod.rs:15 -/
def persona : List UInt8 := ascii "DLKNIZK"

section
variable {G : Type} [AddCommGroup G] [DecidableEq G]

/-- `SRS::setup`: the fixed generator, the generator argument is ignored. dlk/srs.rs:16-21 -/
def setup (C : Curve G) (_rng : Rng r) : G := C.gen

/-- `type Proof = (C, F, F)`: commitment to nonce, challenge, response. dlk/mod.rs:31 -/
abbrev Proof (r : ℕ) (G : Type) : Type := G × ZMod r × ZMod r

/-- `from_witness`. dlk/mod.rs:48-53 (`g` is `self.srs.g_public_key`) -/
def fromWitness (g : G) (w : ZMod r) : ZMod r × G := (w, mulRepr g w)

/-- `generate_pair`. dlk/mod.rs:39-45 -/
def generatePair (g : G) (rng : Rng r) : (ZMod r × G) × Rng r := ((rng 0, mulRepr g (rng 0)), rng.drop 1)

/-- The challenge: hash of `g ‖ g_r`. dlk/mod.rs:68-79, 96-107 -/
noncomputable def challenge (C : Curve G) (H : HashEnv r) (g gr : G) : Res NIZKError (ZMod r) :=
  hashToField H persona (C.codec.enc g ++ C.codec.enc gr)

/-- `prove`. dlk/mod.rs:56-87 -/
noncomputable def prove (C : Curve G) (H : HashEnv r) (g : G) (rng : Rng r) (w : ZMod r) :
    Res NIZKError (Proof r G × Rng r) := do
  let nonce := rng 0
  let gr := mulRepr g nonce
  let c ← challenge C H g gr
  let z := nonce - w * c
  .ok ((gr, c, z), rng.drop 1)

/-- `verify`. dlk/mod.rs:90-121 -/
noncomputable def verify (C : Curve G) (H : HashEnv r) (g : G) (stmnt : G) (proof : Proof r G) :
    Res NIZKError Unit := do
  let c ← challenge C H g proof.1
  let check := mulRepr g proof.2.2 + mulRepr stmnt c
  if check ≠ proof.1 ∨ c ≠ proof.2.1 then .err .DLKVerify else .ok ()

end
end DLK

/-! ## Equality of discrete logarithms -/
namespace DLEQ

/-- `PERSONALIZATION = b"DLEQNIZK"`. dleq/mod.rs:16 -/
def persona : List UInt8 := ascii "DLEQNIZK"

section
variable {G H : Type} [AddCommGroup G] [DecidableEq G] [AddCommGroup H] [DecidableEq H]

/-- `SRS::setup`: both fixed generators. dleq/srs.rs:24-30 -/
def setup (C1 : Curve G) (C2 : Curve H) (_rng : Rng r) : G × H := (C1.gen, C2.gen)

/-- `type Proof = ((C1, C2), F, F)`. dleq/mod.rs:41 -/
abbrev Proof (r : ℕ) (G H : Type) : Type := (G × H) × ZMod r × ZMod r

/-- `from_witness`. dleq/mod.rs:58-63 (`srs = (g, h)`) -/
def fromWitness (srs : G × H) (w : ZMod r) : ZMod r × (G × H) := (w, (mulRepr srs.1 w, mulRepr srs.2 w))

/-- `generate_pair`. dleq/mod.rs:49-55 -/
def generatePair (srs : G × H) (rng : Rng r) : (ZMod r × (G × H)) × Rng r :=
  ((rng 0, (mulRepr srs.1 (rng 0), mulRepr srs.2 (rng 0))), rng.drop 1)

/-- Hash input `g ‖ g_w ‖ h ‖ h_w ‖ g_r ‖ h_r`. dleq/mod.rs:113, 160 -/
def hashInput (C1 : Curve G) (C2 : Curve H) (srs stmnt comm : G × H) : List UInt8 :=
  C1.codec.enc srs.1 ++ (C1.codec.enc stmnt.1 ++ (C2.codec.enc srs.2 ++
    (C2.codec.enc stmnt.2 ++ (C1.codec.enc comm.1 ++ C2.codec.enc comm.2))))

/-- The challenge. dleq/mod.rs:87-114, 134-161 -/
noncomputable def challenge (C1 : Curve G) (C2 : Curve H) (env : HashEnv r) (srs stmnt comm : G × H) :
    Res NIZKError (ZMod r) :=
  hashToField env persona (hashInput C1 C2 srs stmnt comm)

/-- `prove`. dleq/mod.rs:66-122 -/
noncomputable def prove (C1 : Curve G) (C2 : Curve H) (env : HashEnv r) (srs : G × H) (rng : Rng r)
    (w : ZMod r) : Res NIZKError (Proof r G H × Rng r) := do
  let gw := mulRepr srs.1 w
  let hw := mulRepr srs.2 w
  let nonce := rng 0
  let gr := mulRepr srs.1 nonce
  let hr := mulRepr srs.2 nonce
  let c ← challenge C1 C2 env srs (gw, hw) (gr, hr)
  let z := nonce - w * c
  .ok (((gr, hr), c, z), rng.drop 1)

/-- `verify`. dleq/mod.rs:125-191 -/
noncomputable def verify (C1 : Curve G) (C2 : Curve H) (env : HashEnv r) (srs : G × H) (stmnt : G × H)
    (proof : Proof r G H) : Res NIZKError Unit := do
  let c ← challenge C1 C2 env srs stmnt proof.1
  let lhs1 := mulRepr srs.1 proof.2.2 + mulRepr stmnt.1 c
  let lhs2 := mulRepr srs.2 proof.2.2 + mulRepr stmnt.2 c
  if lhs1 ≠ proof.1.1 ∨ lhs2 ≠ proof.1.2 ∨ c ≠ proof.2.1 then .err .DLEQVerify else .ok ()

end
end DLEQ
end Verif
