import Verif.Model.ErrorText

/-!
# C88: the texts of errors against the `#[error("…")]` attributes

The attributes are repeated here as they stand in the source; `Spec.fill` replaces `{k}` by the `k`-th field.
-/

namespace Verif

/-- `{k}` is replaced by the `k`-th argument. -/
def Spec.fill (args : List String) : List Char → List Char
  | '{' :: c :: '}' :: l => (match args[c.toNat - 48]? with
      | some a => a.toList
      | none => ['{', c, '}']) ++ fill args l
  | c :: l => c :: fill args l
  | [] => []

/-- The attribute and the fields of an error. -/
def Spec.attribute : PVSSError → String × List ℕ
  | .InsufficientEvaluationsError => ("Insufficient evaluations", [])
  | .DifferentPointsEvalsError => ("Different number of points and evaluations", [])
  | .DecompGenerationError => ("Could not generate decomposition proof", [])
  | .InvalidParticipantId a => ("Invalid participant ID: {0}", [a])
  | .MismatchedCommitsEncryptionsParticipantsError a b c =>
    ("Mismatch between provided encryptions ({0} given), commitments ({1} given), and participants ({2} given)", [a, b, c])
  | .DualCodeError => ("Degree check failed. Dual code condition does not hold", [])
  | .GSCheckError => ("gs check failed", [])
  | .EmptySharesVectorError => ("Empty shares vector provided", [])
  | .InsufficientIdsError => ("Insufficient elements in the identities vector", [])
  | .InsufficientCommitsInShareError a b => ("Insufficient commitments in PVSS share. Found: {0}, Expected: {1}", [a, b])
  | .InsufficientEncryptionsInShareError a b => ("Insufficient encryptions in PVSS share. Found: {0}, Expected: {1}", [a, b])
  | .EmptyEncryptionsVectorError => ("Share's encryptions vector is empty", [])
  | .MismatchedCommitmentsError a b => ("Mismatched commitment vector lengths. First has: {0}, Second has: {1}", [a, b])
  | .MismatchedEncryptionsError a b => ("Mismatched encryption vector lengths. First has: {0}, Second has: {1}", [a, b])
  | .MismatchedCommitmentsEncryptionsError a b =>
    ("Mismatched commitment and encryption vector lengths within share. First has: {0}, Second has: {1}", [a, b])
  | .TranscriptDifferentConfig a b c d =>
    ("Transcripts have different degree or number of participants: self.degree={0}, other.degree={1}, self.num_participants={2}, self.num_participants={3}",
      [a, b, c, d])
  | .TranscriptDifferentCommitments => ("Transcripts have different commitments", [])
  | .DecompProofVerificationError => ("Decomposition proof does not verify", [])
  | .InsufficientDecryptionsError a b =>
    ("Insufficient number of decryptions provided for reconstruction Got: {0}, Expected: >= {1}", [a, b])
  | .LengthMismatchError => ("Length mismatch", [])
  | .EncryptionCorrectnessError => ("Correctness of encryption check failed", [])
  | .DecompositionInTranscriptError => ("Decomposition in transcript is incorrect", [])
  | .AggregationReconstructionMismatchError => ("Aggregated gs from transcript does not match reconstruction", [])
  | .EdDSAInvalidSignatureError => ("EdDSA signature is invalid", [])
  | .InvalidSignedProofError => ("Signed proof is invalid", [])
  | .NIZKProofDoesNotVerifyError => ("NIZK proof does not verify", [])
  | .RatioIncorrect => ("Ratio incorrect", [])
  | .EvaluationDomainError => ("Could not generate evaluation domain", [])
  | .DifferentSRS => ("Config, dealer and nodes had different SRSes", [])

/-- The same for the modelled errors of the signature schemes. -/
def Spec.sigAttribute : SignatureError → String × List ℕ
  | .SRSSetupError => ("Could not generate SRS", [])
  | .SchnorrVerify => ("Failed verifying Schnorr equation", [])
  | .BatchVerification a b c => ("Different lengths in batch verification: {0}, {1}, {2}", [a, b, c])

/-- The same for the errors of the proofs. -/
def Spec.nizkAttribute : NIZKError → String × List ℕ
  | .SRSSetupError => ("Could not generate SRS", [])
  | .DLKParseError => ("Failed parsing DLK proof", [])
  | .DLKVerify => ("Failed verifying DLK proof", [])
  | .DLEQVerify => ("Failed verifying DLEQ proof", [])

theorem fill_cons (args : List String) {c : Char} (hc : c ≠ '{') (l : List Char) : Spec.fill args (c :: l) = c :: Spec.fill args l := by
  rw [Spec.fill.eq_2]
  intro c' l' h _
  exact hc h

theorem fill_append (args : List String) (l : List Char) : ∀ p : List Char, (p.all (· != '{')) = true → Spec.fill args (p ++ l) = p ++ Spec.fill args l
  | [], _ => rfl
  | c :: p, h => by
    simp only [List.all_cons, Bool.and_eq_true, bne_iff_ne] at h
    rw [List.cons_append, fill_cons args h.1, fill_append args l p h.2, List.cons_append]

theorem fill_plain (args : List String) (p : String) (h : (p.toList.all (· != '{')) = true) : Spec.fill args p.toList = p.toList := by
  have := fill_append args [] p.toList h
  rwa [List.append_nil, Spec.fill, List.append_nil] at this

theorem fill_arg (args : List String) (p : String) (c : Char) (l : List Char) (a : String) (h : (p.toList.all (· != '{')) = true)
    (ha : args[c.toNat - 48]? = some a) : Spec.fill args (p.toList ++ '{' :: c :: '}' :: l) = p.toList ++ (a.toList ++ Spec.fill args l) := by
  rw [fill_append args _ _ h, Spec.fill, ha]

/-- **C88** (attributes). The text of an error is its attribute with every `{k}` replaced by the decimal text of the `k`-th field. -/
theorem C88_template :
    (∀ e : PVSSError, e.text.toList = Spec.fill ((Spec.attribute e).2.map Nat.repr) (Spec.attribute e).1.toList) ∧
    (∀ e : SignatureError, e.text.toList = Spec.fill ((Spec.sigAttribute e).2.map Nat.repr) (Spec.sigAttribute e).1.toList) ∧
    (∀ e : NIZKError, e.text.toList = Spec.fill ((Spec.nizkAttribute e).2.map Nat.repr) (Spec.nizkAttribute e).1.toList) := by
  have h0 : ∀ p : String, (p.toList.all (· != '{')) = true → p.toList = Spec.fill [] p.toList := fun p h => (fill_plain [] p h).symm
  have h1 : ∀ (p t : String) (a : ℕ), (p.toList.all (· != '{')) = true → t.toList = p.toList ++ '{' :: '0' :: '}' :: [] →
      (p ++ a.repr).toList = Spec.fill [a.repr] t.toList := fun p t a hp ht => by
    rw [ht, fill_arg _ p '0' [] a.repr hp rfl, Spec.fill, List.append_nil, String.toList_append]
  have h2 : ∀ (p q t : String) (a b : ℕ), (p.toList.all (· != '{')) = true → (q.toList.all (· != '{')) = true →
      t.toList = p.toList ++ '{' :: '0' :: '}' :: (q.toList ++ '{' :: '1' :: '}' :: []) →
      (p ++ a.repr ++ q ++ b.repr).toList = Spec.fill [a.repr, b.repr] t.toList := fun p q t a b hp hq ht => by
    rw [ht, fill_arg _ p '0' _ a.repr hp rfl, fill_arg _ q '1' _ b.repr hq rfl, Spec.fill, List.append_nil]
    simp only [String.toList_append, List.append_assoc]
  have h3 : ∀ (p q s u t : String) (a b c : ℕ), (p.toList.all (· != '{')) = true → (q.toList.all (· != '{')) = true →
      (s.toList.all (· != '{')) = true → (u.toList.all (· != '{')) = true →
      t.toList = p.toList ++ '{' :: '0' :: '}' :: (q.toList ++ '{' :: '1' :: '}' :: (s.toList ++ '{' :: '2' :: '}' :: u.toList)) →
      (p ++ a.repr ++ q ++ b.repr ++ s ++ c.repr ++ u).toList = Spec.fill [a.repr, b.repr, c.repr] t.toList :=
    fun p q s u t a b c hp hq hs hu ht => by
    rw [ht, fill_arg _ p '0' _ a.repr hp rfl, fill_arg _ q '1' _ b.repr hq rfl, fill_arg _ s '2' _ c.repr hs rfl, fill_plain _ u hu]
    simp only [String.toList_append, List.append_assoc]
  have h4 : ∀ (p q s u t : String) (a b c d : ℕ), (p.toList.all (· != '{')) = true → (q.toList.all (· != '{')) = true →
      (s.toList.all (· != '{')) = true → (u.toList.all (· != '{')) = true →
      t.toList = p.toList ++ '{' :: '0' :: '}' :: (q.toList ++ '{' :: '1' :: '}' :: (s.toList ++ '{' :: '2' :: '}' ::
        (u.toList ++ '{' :: '3' :: '}' :: []))) →
      (p ++ a.repr ++ q ++ b.repr ++ s ++ c.repr ++ u ++ d.repr).toList = Spec.fill [a.repr, b.repr, c.repr, d.repr] t.toList :=
    fun p q s u t a b c d hp hq hs hu ht => by
    rw [ht, fill_arg _ p '0' _ a.repr hp rfl, fill_arg _ q '1' _ b.repr hq rfl, fill_arg _ s '2' _ c.repr hs rfl,
      fill_arg _ u '3' _ d.repr hu rfl, Spec.fill, List.append_nil]
    simp only [String.toList_append, List.append_assoc]
  refine ⟨fun e => ?_, fun e => ?_, fun e => ?_⟩
  · cases e
    case InvalidParticipantId a => exact h1 _ _ a (by decide +kernel) (by dsimp only [Spec.attribute]; decide +kernel)
    case MismatchedCommitsEncryptionsParticipantsError a b c =>
      exact h3 _ _ _ _ _ a b c (by decide +kernel) (by decide +kernel) (by decide +kernel) (by decide +kernel) (by dsimp only [Spec.attribute]; decide +kernel)
    case TranscriptDifferentConfig a b c d =>
      exact h4 _ _ _ _ _ a b c d (by decide +kernel) (by decide +kernel) (by decide +kernel) (by decide +kernel) (by dsimp only [Spec.attribute]; decide +kernel)
    all_goals first
      | exact h0 _ (by decide +kernel)
      | exact h2 _ _ _ _ _ (by decide +kernel) (by decide +kernel) (by dsimp only [Spec.attribute]; decide +kernel)
  · cases e
    case BatchVerification a b c =>
      have h := h3 "Different lengths in batch verification: " ", " ", " "" "Different lengths in batch verification: {0}, {1}, {2}" a b c
        (by decide +kernel) (by decide +kernel) (by decide +kernel) (by decide +kernel) (by decide +kernel)
      rw [String.append_empty] at h
      exact h
    all_goals exact h0 _ (by decide +kernel)
  · cases e
    all_goals exact h0 _ (by decide +kernel)

/-- The numbers appear in the order of the fields. -/
example : (PVSSError.InsufficientCommitsInShareError 3 14).text = "Insufficient commitments in PVSS share. Found: 3, Expected: 14" ∧
    (PVSSError.TranscriptDifferentConfig 1 2 3 4).text =
      "Transcripts have different degree or number of participants: self.degree=1, other.degree=2, self.num_participants=3, self.num_participants=4" := by
  decide +kernel

end Verif
