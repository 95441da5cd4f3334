import Verif.Model.Poly
import Verif.Model.Nizk
import Verif.Model.EdDSA

/-!
# PVSS data types, core aggregation, decomposition proofs, decryption

/repo/src/modified_scrape/{srs,config,participant,dealer,pvss,decomp,share,decryption}.rs
-/

namespace Verif

/-- External operations of a pairing suite: curves, scalar codec, hashing, pairing, SHAKE256, dalek. -/
structure Suite (r : ℕ) (G1 G2 K : Type) where
  c1 : Curve G1
  c2 : Curve G2
  frC : Codec (ZMod r)
  hash : HashEnv r
  /-- `E::pairing` -/
  pair : G1 → G2 → K
  /-- first 32 bytes of the SHAKE256 output -/
  shake : List UInt8 → Bytes 32
  ed : EdOps

/-- `SRS { g1, g2, g2_prime }`. srs.rs:18-22 -/
structure SRS (G1 G2 : Type) where
  g1 : G1
  g2 : G2
  g2Prime : G2
deriving DecidableEq

/-- `SRS::setup`: three random points (the draws are the arguments). srs.rs:27-33 -/
def SRS.setup {G1 G2 : Type} (d1 : G1) (d2 d3 : G2) : SRS G1 G2 := ⟨d1, d2, d3⟩

/-- `Config { srs, degree, num_participants }`. config.rs:10-14 -/
structure Config (G1 G2 : Type) where
  srs : SRS G1 G2
  degree : ℕ
  numParticipants : ℕ
deriving DecidableEq

/-- `Participant { id, public_key_sig, public_key_ed }` (`pairing_type` is `PhantomData`). participant.rs:26-35 -/
structure Participant (G1 : Type) where
  id : ℕ
  pkSig : G1
  pkEd : PublicKey
deriving DecidableEq

/-- `Dealer { private_key_sig, private_key_ed, participant }`. dealer.rs:14-21 -/
structure Dealer (r : ℕ) (G1 : Type) where
  skSig : ZMod r
  skEd : SecretKey
  participant : Participant G1

/-- `PVSSCore { encs, comms }`. pvss.rs:11-17 -/
structure PVSSCore (G1 G2 : Type) where
  encs : List G1
  comms : List G2
deriving DecidableEq

/-- `PVSSShareSecrets { p_0, my_secret }`. pvss.rs:83-86 -/
structure PVSSShareSecrets (r : ℕ) (G1 : Type) where
  p0 : ZMod r
  mySecret : G1

/-- `DecompProof { proof, gs }`. decomp.rs:35-38 -/
structure DecompProof (r : ℕ) (G2 : Type) where
  proof : DLK.Proof r G2
  gs : G2
deriving DecidableEq

/-- `SignedProof { decomp_proof, signature_on_decomp }`. share.rs:22-28 -/
structure SignedProof (r : ℕ) (G2 : Type) where
  decompProof : DecompProof r G2
  signature : Signature
deriving DecidableEq

/-- `PVSSShare { participant_id, pvss_core, signed_proof }`. share.rs:48-55 -/
structure PVSSShare (r : ℕ) (G1 G2 : Type) where
  participantId : ℕ
  core : PVSSCore G1 G2
  signedProof : SignedProof r G2
deriving DecidableEq

/-- `PVSSAggregatedShare { num_participants, degree, pvss_core, contributions }`. share.rs:59-67 -/
structure AggShare (r : ℕ) (G1 G2 : Type) where
  numParticipants : ℕ
  degree : ℕ
  core : PVSSCore G1 G2
  contributions : BMap (SignedProof r G2 × UInt64)
deriving DecidableEq

variable {r : ℕ} [Fact r.Prime] {G1 G2 K : Type}
  [AddCommGroup G1] [DecidableEq G1] [AddCommGroup G2] [DecidableEq G2]

/-! ## pvss.rs -/

/-- `PVSSCore::empty`. pvss.rs:24-29 -/
def PVSSCore.empty (n : ℕ) : PVSSCore G1 G2 := ⟨List.replicate n 0, List.replicate n 0⟩

/-- `PVSSCore::aggregate`. pvss.rs:32-77 -/
def PVSSCore.aggregate (a b : PVSSCore G1 G2) : Res PVSSError (PVSSCore G1 G2) :=
  if a.comms.isEmpty then .err .EmptyEncryptionsVectorError
  else if a.comms.length ≠ b.comms.length then
    .err (.MismatchedCommitmentsError a.comms.length b.comms.length)
  else if a.encs.length ≠ b.encs.length then
    .err (.MismatchedEncryptionsError a.encs.length b.encs.length)
  else if a.comms.length ≠ a.encs.length then
    .err (.MismatchedCommitmentsEncryptionsError a.comms.length b.encs.length)
  else
    .ok ⟨(a.encs.zip b.encs).map fun e => e.1 + e.2, (a.comms.zip b.comms).map fun c => c.1 + c.2⟩

/-! ## decomp.rs -/

/-- `Decomp::generate`. decomp.rs:43-56 -/
noncomputable def Decomp.generate (S : Suite r G1 G2 K) (rng : Rng r) (cfg : Config G1 G2) (p0 : ZMod r) :
    Res PVSSError (DecompProof r G2 × Rng r) := do
  let gs := mulRepr cfg.srs.g2 p0
  let (proof, rng) ← (DLK.prove S.c2 S.hash cfg.srs.g2 rng p0).unwrap
  .ok (⟨proof, gs⟩, rng)

/-- `DecompProof::verify`. decomp.rs:71-82 -/
noncomputable def DecompProof.verify (S : Suite r G1 G2 K) (d : DecompProof r G2) (cfg : Config G1 G2) :
    Res PVSSError Unit :=
  (DLK.verify S.c2 S.hash cfg.srs.g2 d.gs d.proof).orErr .NIZKProofDoesNotVerifyError

/-- Serialization of the tuple `proof` (point, scalar, scalar). decomp.rs:87-88 -/
def proofCodec (S : Suite r G1 G2 K) : Codec (DLK.Proof r G2) :=
  Codec.prod S.c2.codec (Codec.prod S.frC S.frC)

/-- `DecompProof::digest`. decomp.rs:84-102 -/
def DecompProof.digest (S : Suite r G1 G2 K) (d : DecompProof r G2) : Digest :=
  ⟨S.shake ((proofCodec S).enc d.proof ++ S.c2.codec.enc d.gs)⟩

/-! ## share.rs -/

/-- `SignedProof::verify`: both checks are `unwrap`ped. share.rs:33-41 -/
noncomputable def SignedProof.verify (S : Suite r G1 G2 K) (p : SignedProof r G2) (cfg : Config G1 G2)
    (pk : PublicKey) : Res PVSSError Unit := do
  (p.decompProof.verify S cfg).unwrap
  (p.signature.verify S.ed (p.decompProof.digest S) pk).unwrap
  .ok ()

/-- `PVSSAggregatedShare::empty`. share.rs:82-89 -/
def AggShare.empty (degree n : ℕ) : AggShare r G1 G2 := ⟨n, degree, PVSSCore.empty n, BMap.empty⟩

/-- Merge of the entries of one id. share.rs:107-122 -/
def mergeAt (m : Mode) (a b : BMap (SignedProof r G2 × UInt64)) (i : ℕ) :
    Res PVSSError (Option (ℕ × (SignedProof r G2 × UInt64))) :=
  match a.get i, b.get i with
  | some (x, w1), some (y, w2) =>
    if x.decompProof.gs ≠ y.decompProof.gs then .err .TranscriptDifferentCommitments
    else do
      let w ← addWeight m w1 w2
      .ok (some (i, (⟨x.decompProof, x.signature⟩, w)))
  | some (x, w), none => .ok (some (i, (x, w)))
  | none, some (y, w) => .ok (some (i, (y, w)))
  | none, none => .ok none

/-- `PVSSAggregatedShare::aggregate`. share.rs:93-138 -/
def AggShare.aggregate (m : Mode) (a b : AggShare r G1 G2) : Res PVSSError (AggShare r G1 G2) :=
  if a.degree ≠ b.degree ∨ a.numParticipants ≠ b.numParticipants then
    .err (.TranscriptDifferentConfig a.degree b.degree a.numParticipants b.numParticipants)
  else do
    let contributions ← collect (mergeAt m a.contributions b.contributions) (List.range a.numParticipants)
    let core ← (a.core.aggregate b.core).unwrap
    .ok { numParticipants := a.numParticipants
          degree := a.degree
          core := core
          contributions := BMap.ofList (contributions.filterMap id) }

/-- The one-share transcript built by `aggregate_pvss_share`. share.rs:144-153 -/
def AggShare.ofShare (degree n : ℕ) (s : PVSSShare r G1 G2) : AggShare r G1 G2 :=
  { numParticipants := n
    degree := degree
    core := s.core
    contributions := BMap.empty.insert s.participantId
      (⟨s.signedProof.decompProof, s.signedProof.signature⟩, 1) }

/-- `PVSSAggregatedShare::aggregate_pvss_share`. share.rs:142-157 -/
def AggShare.aggregatePvssShare (m : Mode) (a : AggShare r G1 G2) (s : PVSSShare r G1 G2) :
    Res PVSSError (AggShare r G1 G2) :=
  a.aggregate m (AggShare.ofShare a.degree a.numParticipants s)

/-! ## decryption.rs -/

/-- `DecryptedShare { dec, origin }`. decryption.rs:11-14 -/
structure DecryptedShare (G1 : Type) where
  dec : G1
  origin : ℕ
deriving DecidableEq

/-- `DecryptedShare::generate`. decryption.rs:19-24 -/
def DecryptedShare.generate {ε : Type} (encs : List G1) (sk : ZMod r) (myId : ℕ) : Res ε (DecryptedShare G1) := do
  let e ← idx encs myId
  let inv ← invUnwrap sk
  .ok ⟨mulRepr e inv, myId⟩

/-! ## derived codecs -/

/-- derive for `SRS`. srs.rs:17 -/
def SRS.codec (S : Suite r G1 G2 K) : Codec (SRS G1 G2) :=
  (Codec.prod S.c1.codec (Codec.prod S.c2.codec S.c2.codec)).iso
    (fun x => ⟨x.1, x.2.1, x.2.2⟩) (fun s => (s.g1, s.g2, s.g2Prime))

/-- derive for `Config`. config.rs:9 -/
def Config.codec (S : Suite r G1 G2 K) : Codec (Config G1 G2) :=
  (Codec.prod (SRS.codec S) (Codec.prod Codec.u64 Codec.u64)).iso
    (fun x => ⟨x.1, x.2.1, x.2.2⟩) (fun c => (c.srs, c.degree, c.numParticipants))

/-- derive for `Participant` (`PhantomData` first). participant.rs:25 -/
def Participant.codec (S : Suite r G1 G2 K) : Codec (Participant G1) :=
  (Codec.prod Codec.phantom (Codec.prod Codec.u64 (Codec.prod S.c1.codec PublicKey.codec))).iso
    (fun x => ⟨x.2.1, x.2.2.1, x.2.2.2⟩) (fun p => ((), p.id, p.pkSig, p.pkEd))

/-- derive for `PVSSCore`. pvss.rs:10 -/
def PVSSCore.codec (S : Suite r G1 G2 K) : Codec (PVSSCore G1 G2) :=
  (Codec.prod (Codec.vec S.c1.codec) (Codec.vec S.c2.codec)).iso
    (fun x => ⟨x.1, x.2⟩) (fun c => (c.encs, c.comms))

/-- derive for `DecompProof`. decomp.rs:34 -/
def DecompProof.codec (S : Suite r G1 G2 K) : Codec (DecompProof r G2) :=
  (Codec.prod (proofCodec S) S.c2.codec).iso (fun x => ⟨x.1, x.2⟩) (fun d => (d.proof, d.gs))

/-- `message_from_pi_i`. decomp.rs:108-112, share.rs:72-76 -/
def messageFromPi (S : Suite r G1 G2 K) (d : DecompProof r G2) : List UInt8 := (DecompProof.codec S).enc d

/-- derive for `SignedProof`. share.rs:21 -/
def SignedProof.codec (S : Suite r G1 G2 K) : Codec (SignedProof r G2) :=
  (Codec.prod (DecompProof.codec S) Signature.codec).iso
    (fun x => ⟨x.1, x.2⟩) (fun p => (p.decompProof, p.signature))

/-- derive for `PVSSShare`. share.rs:47 -/
def PVSSShare.codec (S : Suite r G1 G2 K) : Codec (PVSSShare r G1 G2) :=
  (Codec.prod Codec.u64 (Codec.prod (PVSSCore.codec S) (SignedProof.codec S))).iso
    (fun x => ⟨x.1, x.2.1, x.2.2⟩) (fun s => (s.participantId, s.core, s.signedProof))

/-- derive for `PVSSAggregatedShare`. share.rs:58 -/
def AggShare.codec (S : Suite r G1 G2 K) : Codec (AggShare r G1 G2) :=
  (Codec.prod Codec.u64 (Codec.prod Codec.u64 (Codec.prod (PVSSCore.codec S)
      (Codec.bmap (Codec.prod (SignedProof.codec S) Codec.weight))))).iso
    (fun x => ⟨x.1, x.2.1, x.2.2.1, x.2.2.2⟩)
    (fun a => (a.numParticipants, a.degree, a.core, a.contributions))

end Verif
