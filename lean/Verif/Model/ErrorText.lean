import Verif.Model.Poly
import Verif.Model.Schnorr
import Verif.Model.Nizk

/-!
# Texts of errors — /repo/src/modified_scrape/errors.rs, /repo/src/signature/utils/errors.rs, /repo/src/nizk/utils/errors.rs

`#[derive(Error)]` (thiserror) derives `Display` from the `#[error("…")]` attributes: `{k}` is replaced by the decimal text of
the `k`-th field.
-/

namespace Verif

/-- `Display` of `PVSSError`. modified_scrape/errors.rs:9-68 -/
def PVSSError.text : PVSSError → String
  | .InsufficientEvaluationsError => "Insufficient evaluations"
  | .DifferentPointsEvalsError => "Different number of points and evaluations"
  | .DecompGenerationError => "Could not generate decomposition proof"
  | .InvalidParticipantId i => "Invalid participant ID: " ++ i.repr
  | .MismatchedCommitsEncryptionsParticipantsError a b c =>
    "Mismatch between provided encryptions (" ++ a.repr ++ " given), commitments (" ++ b.repr ++ " given), and participants (" ++
      c.repr ++ " given)"
  | .DualCodeError => "Degree check failed. Dual code condition does not hold"
  | .GSCheckError => "gs check failed"
  | .EmptySharesVectorError => "Empty shares vector provided"
  | .InsufficientIdsError => "Insufficient elements in the identities vector"
  | .InsufficientCommitsInShareError a b => "Insufficient commitments in PVSS share. Found: " ++ a.repr ++ ", Expected: " ++ b.repr
  | .InsufficientEncryptionsInShareError a b =>
    "Insufficient encryptions in PVSS share. Found: " ++ a.repr ++ ", Expected: " ++ b.repr
  | .EmptyEncryptionsVectorError => "Share's encryptions vector is empty"
  | .MismatchedCommitmentsError a b =>
    "Mismatched commitment vector lengths. First has: " ++ a.repr ++ ", Second has: " ++ b.repr
  | .MismatchedEncryptionsError a b =>
    "Mismatched encryption vector lengths. First has: " ++ a.repr ++ ", Second has: " ++ b.repr
  | .MismatchedCommitmentsEncryptionsError a b =>
    "Mismatched commitment and encryption vector lengths within share. First has: " ++ a.repr ++ ", Second has: " ++ b.repr
  | .TranscriptDifferentConfig a b c d =>
    "Transcripts have different degree or number of participants: self.degree=" ++ a.repr ++ ", other.degree=" ++ b.repr ++
      ", self.num_participants=" ++ c.repr ++ ", self.num_participants=" ++ d.repr
  | .TranscriptDifferentCommitments => "Transcripts have different commitments"
  | .DecompProofVerificationError => "Decomposition proof does not verify"
  | .InsufficientDecryptionsError a b =>
    "Insufficient number of decryptions provided for reconstruction Got: " ++ a.repr ++ ", Expected: >= " ++ b.repr
  | .LengthMismatchError => "Length mismatch"
  | .EncryptionCorrectnessError => "Correctness of encryption check failed"
  | .DecompositionInTranscriptError => "Decomposition in transcript is incorrect"
  | .AggregationReconstructionMismatchError => "Aggregated gs from transcript does not match reconstruction"
  | .EdDSAInvalidSignatureError => "EdDSA signature is invalid"
  | .InvalidSignedProofError => "Signed proof is invalid"
  | .NIZKProofDoesNotVerifyError => "NIZK proof does not verify"
  | .RatioIncorrect => "Ratio incorrect"
  | .EvaluationDomainError => "Could not generate evaluation domain"
  | .DifferentSRS => "Config, dealer and nodes had different SRSes"

/-- `Display` of `SignatureError`. signature/utils/errors.rs:29-44 (modelled variants) -/
def SignatureError.text : SignatureError → String
  | .SRSSetupError => "Could not generate SRS"
  | .SchnorrVerify => "Failed verifying Schnorr equation"
  | .BatchVerification a b c =>
    "Different lengths in batch verification: " ++ a.repr ++ ", " ++ b.repr ++ ", " ++ c.repr

/-- `Display` of `NIZKError`. nizk/utils/errors.rs:8-17 -/
def NIZKError.text : NIZKError → String
  | .SRSSetupError => "Could not generate SRS"
  | .DLKParseError => "Failed parsing DLK proof"
  | .DLKVerify => "Failed verifying DLK proof"
  | .DLEQVerify => "Failed verifying DLEQ proof"

end Verif
