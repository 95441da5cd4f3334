import Verif.Model.Curve

/-!
# Schnorr signatures — /repo/src/signature/schnorr/mod.rs
-/

namespace Verif

/-- `SignatureError` (variants relevant here). /repo/src/signature/utils/errors.rs:28-45 -/
inductive SignatureError where
  | SRSSetupError
  | SchnorrVerify
  | BatchVerification (keys messages signatures : ℕ)
deriving DecidableEq, Repr

namespace Schnorr
variable {r : ℕ} [Fact r.Prime] {G : Type} [AddCommGroup G] [DecidableEq G]

/-- `PERSONALIZATION = b"SCHSIGNA"`. schnorr/mod.rs:14 -/
def persona : List UInt8 := ascii "SCHSIGNA"

/-- `SRS::setup`. schnorr/srs.rs:14-19 -/
def setup (C : Curve G) (_rng : Rng r) : G := C.gen

/-- `SRS::from_generator`. schnorr/srs.rs:22-27 -/
def fromGenerator (g : G) : G := g

/-- `type Signature = (C, F)`. schnorr/mod.rs:28 -/
abbrev Sig (r : ℕ) (G : Type) : Type := G × ZMod r

/-- `from_sk`. schnorr/mod.rs:45-50 -/
def fromSk (g : G) (sk : ZMod r) : ZMod r × G := (sk, mulRepr g sk)

/-- `generate_keypair`. schnorr/mod.rs:36-42 -/
def generateKeypair (g : G) (rng : Rng r) : (ZMod r × G) × Rng r := ((rng 0, mulRepr g (rng 0)), rng.drop 1)

/-- Hash input `message ‖ g ‖ v_g`. schnorr/mod.rs:80, 112, 171 -/
def hashInput (C : Curve G) (g : G) (msg : List UInt8) (vg : G) : List UInt8 :=
  msg ++ (C.codec.enc g ++ C.codec.enc vg)

/-- The challenge. schnorr/mod.rs:68-81, 100-113, 154-172 -/
noncomputable def challenge (C : Curve G) (H : HashEnv r) (g : G) (msg : List UInt8) (vg : G) :
    Res SignatureError (ZMod r) :=
  hashToField H persona (hashInput C g msg vg)

/-- `sign`. schnorr/mod.rs:55-89 -/
noncomputable def sign (C : Curve G) (H : HashEnv r) (g : G) (rng : Rng r) (sk : ZMod r) (msg : List UInt8) :
    Res SignatureError (Sig r G × Rng r) := do
  let v := rng 0
  let vg := mulRepr g v
  let c ← challenge C H g msg vg
  .ok ((vg, v - sk * c), rng.drop 1)

/-- `verify`. schnorr/mod.rs:93-126 -/
noncomputable def verify (C : Curve G) (H : HashEnv r) (g pk : G) (msg : List UInt8) (sig : Sig r G) :
    Res SignatureError Unit := do
  let c ← challenge C H g msg sig.1
  let check := mulRepr g sig.2 + mulRepr pk c
  if check ≠ sig.1 then .err .SchnorrVerify else .ok ()

/-- State of the accumulation loop of `batch_verify`: bases and scalars pushed so far, current power of alpha. -/
structure BatchAcc (r : ℕ) (G : Type) where
  bases : List G
  scalars : List (ZMod r)
  cur : ZMod r

/-- One iteration. schnorr/mod.rs:162-184 -/
noncomputable def batchStep (C : Curve G) (H : HashEnv r) (g : G) (alpha : ZMod r) (pks : List G)
    (msgs : List (List UInt8)) (sigs : List (Sig r G)) (acc : BatchAcc r G) (i : ℕ) :
    Res SignatureError (BatchAcc r G) := do
  let sig ← idx sigs i
  let msg ← idx msgs i
  let c ← challenge C H g msg sig.1
  let pk ← idx pks i
  .ok { bases := acc.bases ++ [g, pk, sig.1]
        scalars := acc.scalars ++ [sig.2 * acc.cur, c * acc.cur, -acc.cur]
        cur := acc.cur * alpha }

/-- `VariableBaseMSM::multi_scalar_mul`: the sum of `scalar * base` over the zipped vectors. -/
def msm (bases : List G) (scalars : List (ZMod r)) : G :=
  ((bases.zip scalars).map fun bs => mulRepr bs.1 bs.2).sum

/-- `batch_verify`. schnorr/mod.rs:134-195 -/
noncomputable def batchVerify (C : Curve G) (H : HashEnv r) (g : G) (rng : Rng r) (pks : List G)
    (msgs : List (List UInt8)) (sigs : List (Sig r G)) : Res SignatureError Unit :=
  if pks.length ≠ msgs.length ∨ pks.length ≠ sigs.length then
    .err (.BatchVerification pks.length msgs.length sigs.length)
  else do
    let alpha := rng 0
    let acc ← loop (batchStep C H g alpha pks msgs sigs) ⟨[], [], 1⟩ (List.range pks.length)
    if msm acc.bases acc.scalars ≠ 0 then .err .SchnorrVerify else .ok ()

end Schnorr
end Verif
