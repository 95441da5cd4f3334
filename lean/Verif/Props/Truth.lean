import Verif.Props.Outcome
import Verif.Props.Schnorr
import Verif.Lemmas.History
import Verif.Model.ErrorText

/-!
# Errors are true: C87, and their texts: C88
-/

open Finset Polynomial

set_option linter.unusedSectionVars false

namespace Verif

variable {r : ℕ} [Fact r.Prime] {G1 G2 K : Type}
  [AddCommGroup G1] [DecidableEq G1] [AddCommGroup G2] [DecidableEq G2] [CommMonoid K] [DecidableEq K]
  [Module (ZMod r) G1] [Module (ZMod r) G2]

/-! ### C87 -/

/-- What an error of `share_verify` says about the share. -/
def Spec.ShareDefect (S : Suite r G1 G2 K) (a : Aggregator r G1 G2) (sh : PVSSShare r G1 G2) : PVSSError → Prop
  | .InvalidParticipantId i => i = sh.participantId ∧ a.participants.get i = none
  | .EncryptionCorrectnessError =>
    ∃ q, a.participants.get sh.participantId = some q ∧ ¬ Spec.EncOk S a.config.srs.g2 q.pkSig sh.core sh.participantId
  | .MismatchedCommitsEncryptionsParticipantsError e c n =>
    e = sh.core.encs.length ∧ c = sh.core.comms.length ∧ n = a.config.numParticipants ∧ ¬ (e = n ∧ c = n)
  | .DualCodeError => ¬ Spec.Codeword r a.config.degree sh.core.comms
  | .GSCheckError => ¬ Spec.InterpolatesTo r a.config.degree sh.core.comms sh.signedProof.decompProof.gs
  | _ => False

/-- What an error of `aggregation_verify` says about the transcript. -/
def Spec.AggDefect (S : Suite r G1 G2 K) (a : Aggregator r G1 G2) (ag : AggShare r G1 G2) : PVSSError → Prop
  | .MismatchedCommitsEncryptionsParticipantsError e c n =>
    e = ag.core.encs.length ∧ c = ag.core.comms.length ∧ n = a.config.numParticipants ∧ ¬ (e = n ∧ c = n)
  | .DualCodeError => ¬ Spec.Codeword r a.config.degree ag.core.comms
  | .EncryptionCorrectnessError =>
    ∃ i < a.config.numParticipants, ∃ q, a.participants.get i = some q ∧
      ¬ Spec.EncOk S a.config.srs.g2 q.pkSig ag.core i
  | .AggregationReconstructionMismatchError =>
    ¬ Spec.InterpolatesTo r a.config.degree ag.core.comms (Spec.weightedGs ag.contributions)
  | _ => False

/-- **C87** (shares). Whatever the random draws, an error of `share_verify` names a defect that the share has. -/
theorem C87_share (S : Suite r G1 G2 K) (hS : PairLaws S) (hH : HashTotal S.hash) (m : Mode) (a : Aggregator r G1 G2) (rng : Rng r)
    (sh : PVSSShare r G1 G2) (ht : a.config.degree + 2 ≤ a.config.numParticipants)
    (hn : a.config.numParticipants ≤ r) (hcap : a.config.numParticipants < 2 ^ 58) (e : PVSSError)
    (h : a.shareVerify S m rng sh = .err e) : Spec.ShareDefect S a sh e := by
  obtain ⟨h1, h2⟩ := C70 S hS hH m a rng sh ht hn hcap
  cases hq : a.participants.get sh.participantId with
  | none =>
    rw [h1 hq] at h
    cases h
    exact ⟨rfl, hq⟩
  | some q =>
    obtain ⟨h3, h4⟩ := h2 q hq
    by_cases c1 : sh.participantId < sh.core.comms.length ∧ sh.participantId < sh.core.encs.length
    swap
    · rw [h3 c1] at h; cases h
    obtain ⟨h5, h6⟩ := h4 c1
    by_cases c2 : Spec.EncOk S a.config.srs.g2 q.pkSig sh.core sh.participantId
    swap
    · rw [h5 c2] at h; cases h
      exact ⟨q, hq, c2⟩
    obtain ⟨h7, h8⟩ := h6 c2
    by_cases c3 : sh.core.encs.length = a.config.numParticipants ∧ sh.core.comms.length = a.config.numParticipants
    swap
    · rw [h7 c3] at h; cases h
      exact ⟨rfl, rfl, rfl, c3⟩
    obtain ⟨h9, h10⟩ := h8 c3
    by_cases c4 : Spec.DegreeTest a.config.degree sh.core.comms rng
    swap
    · rw [h9 c4] at h; cases h
      exact fun hc => c4 (degreeTest_codeword (by omega) (by omega) hc rng)
    obtain ⟨h11, h12⟩ := h10 c4
    by_cases c5 : Spec.InterpolatesTo r a.config.degree sh.core.comms sh.signedProof.decompProof.gs
    swap
    · rw [h11 c5] at h; cases h
      exact c5
    obtain ⟨h13, h14⟩ := h12 c5
    by_cases c6 : Spec.SignedOk S a.config.srs.g2 q.pkEd sh.signedProof
    · rw [h14 c6] at h; cases h
    · rw [h13 c6] at h; cases h

/-- **C87** (transcripts). Whatever the random draws, an error of `aggregation_verify` names a defect that the transcript has. -/
theorem C87_agg (S : Suite r G1 G2 K) (hS : PairLaws S) (hH : HashTotal S.hash) (m : Mode) (a : Aggregator r G1 G2) (rng : Rng r)
    (ag : AggShare r G1 G2) (ht : a.config.degree + 2 ≤ a.config.numParticipants)
    (hn : a.config.numParticipants ≤ r) (hcap : a.config.numParticipants < 2 ^ 58) (e : PVSSError)
    (h : a.aggregationVerify S m rng ag = .err e) : Spec.AggDefect S a ag e := by
  obtain ⟨h1, h2⟩ := C71 S hS hH m a rng ag ht hn hcap
  by_cases c1 : ag.core.encs.length = a.config.numParticipants ∧ ag.core.comms.length = a.config.numParticipants
  swap
  · rw [h1 c1] at h; cases h
    exact ⟨rfl, rfl, rfl, c1⟩
  obtain ⟨h3, h4⟩ := h2 c1
  by_cases c2 : Spec.DegreeTest a.config.degree ag.core.comms rng
  swap
  · rw [h3 c2] at h; cases h
    exact fun hc => c2 (degreeTest_codeword (by omega) (by omega) hc rng)
  obtain ⟨h5, h6⟩ := h4 c2
  by_cases c3 : ∃ i < a.config.numParticipants, a.participants.get i = none
  · rw [h5 c3] at h; cases h
  have hq : ∀ i < a.config.numParticipants, ∃ q, a.participants.get i = some q := by
    intro i hi
    cases hg : a.participants.get i with
    | none => exact absurd ⟨i, hi, hg⟩ c3
    | some q => exact ⟨q, rfl⟩
  obtain ⟨pk, hpk⟩ := keyTable_of_get' hq
  obtain ⟨h7, h8⟩ := h6 pk hpk
  by_cases c4 : Spec.BatchEq S a.config.srs.g2 pk ag.core (rng (a.config.numParticipants - a.config.degree - 1))
  swap
  · rw [h7 c4] at h; cases h
    by_contra hno
    refine c4 (batchEq_of_encOk hS c1.1 c1.2 (fun i hi => ?_) _)
    obtain ⟨q, hq1, hq2⟩ := hpk i hi
    by_contra hbad
    exact hno ⟨i, hi, q, hq1, by rwa [hq2]⟩
  obtain ⟨h9, h10⟩ := h8 c4
  by_cases c5 : ∀ i x w, ag.contributions.get i = some (x, w) →
                ∃ q, a.participants.get i = some q ∧ Spec.SignedOk S a.config.srs.g2 q.pkEd x
  swap
  · rw [h9 c5] at h; cases h
  obtain ⟨h11, h12⟩ := h10 c5
  by_cases c6 : Spec.InterpolatesTo r a.config.degree ag.core.comms (Spec.weightedGs ag.contributions)
  · rw [h12 c6] at h; cases h
  · rw [h11 c6] at h; cases h
    exact c6

/-- What an error of transcript aggregation says about the two transcripts. -/
def Spec.TxConflict (a b : AggShare r G1 G2) : PVSSError → Prop
  | .TranscriptDifferentConfig d1 d2 n1 n2 =>
    d1 = a.degree ∧ d2 = b.degree ∧ n1 = a.numParticipants ∧ n2 = b.numParticipants ∧ ¬ (d1 = d2 ∧ n1 = n2)
  | .TranscriptDifferentCommitments =>
    ∃ i x w y w', a.contributions.get i = some (x, w) ∧ b.contributions.get i = some (y, w') ∧
      x.decompProof.gs ≠ y.decompProof.gs
  | _ => False

/-- **C87** (merging). An error of `PVSSAggregatedShare::aggregate` names a conflict that the transcripts have. -/
theorem C87_merge (m : Mode) (a b : AggShare r G1 G2) (e : PVSSError) (h : a.aggregate m b = .err e) :
    Spec.TxConflict a b e := by
  rcases aggregate_err h with ⟨h1, rfl⟩ | ⟨-, -, rfl, i, -, x, w, y, w', h1, h2, h3⟩
  · exact ⟨rfl, rfl, rfl, rfl, by tauto⟩
  · exact ⟨i, x, w, y, w', h1, h2, h3⟩

theorem batchStep_ne_err {G : Type} [AddCommGroup G] [DecidableEq G] {C : Curve G} {H : HashEnv r} {g : G} {α : ZMod r}
    {pks : List G} {msgs : List (List UInt8)} {sigs : List (Schnorr.Sig r G)} {acc : Schnorr.BatchAcc r G} {i : ℕ}
    {e : SignatureError} : Schnorr.batchStep C H g α pks msgs sigs acc i ≠ .err e := by
  intro h
  unfold Schnorr.batchStep at h
  rw [Res.bind_eq_err] at h
  rcases h with h | ⟨sig, -, h⟩
  · exact idx_ne_err h
  rw [Res.bind_eq_err] at h
  rcases h with h | ⟨msg, -, h⟩
  · exact idx_ne_err h
  rw [Res.bind_eq_err] at h
  rcases h with h | ⟨c, -, h⟩
  · exact hashToField_ne_err _ _ _ _ h
  rw [Res.bind_eq_err] at h
  rcases h with h | ⟨pk, -, h⟩
  · exact idx_ne_err h
  cases h

/-- **C87** (Schnorr batches). A batch is refused with its three lengths, which differ, or it contains a signature that does not
verify. -/
theorem C87_batch {G : Type} [AddCommGroup G] [DecidableEq G] [Module (ZMod r) G] (C : Curve G) (H : HashEnv r) (g : G)
    (rng : Rng r) (pks : List G) (msgs : List (List UInt8)) (sigs : List (Schnorr.Sig r G)) (e : SignatureError)
    (h : Schnorr.batchVerify C H g rng pks msgs sigs = .err e) :
    (e = .BatchVerification pks.length msgs.length sigs.length ∧ ¬ (pks.length = msgs.length ∧ pks.length = sigs.length)) ∨
    (e = .SchnorrVerify ∧ ∃ (i : ℕ) (pk : G) (msg : List UInt8) (sig : Schnorr.Sig r G), pks[i]? = some pk ∧ msgs[i]? = some msg ∧ sigs[i]? = some sig ∧
      Schnorr.verify C H g pk msg sig ≠ .ok ()) := by
  by_cases hl : pks.length = msgs.length ∧ pks.length = sigs.length
  · right
    have hno : ¬ ∀ i (h : i < pks.length), Schnorr.verify C H g pks[i] msgs[i] sigs[i] = .ok () := by
      intro hv
      rw [C47 C H g rng pks msgs sigs hl.1 hl.2 hv] at h
      cases h
    push Not at hno
    obtain ⟨i, hi, hv⟩ := hno
    refine ⟨?_, i, pks[i], msgs[i], sigs[i], by simp, by simp, by simp, hv⟩
    unfold Schnorr.batchVerify at h
    rw [if_neg (by tauto)] at h
    rw [Res.bind_eq_err] at h
    rcases h with h | ⟨acc, -, h⟩
    · exfalso
      have key : ∀ (l : List ℕ) acc, loop (Schnorr.batchStep C H g (rng 0) pks msgs sigs) acc l ≠ .err e := by
        intro l
        induction l with
        | nil => intro acc h; cases h
        | cons x l ih =>
          intro acc h
          rw [loop_cons, Res.bind_eq_err] at h
          rcases h with h | ⟨acc', -, h⟩
          · exact batchStep_ne_err h
          · exact ih _ h
      exact key _ _ h
    · split at h
      · exact (Res.err.inj h).symm
      · cases h
  · left
    unfold Schnorr.batchVerify at h
    rw [if_pos (by tauto)] at h
    exact ⟨(Res.err.inj h).symm, hl⟩

/-! ### C88 -/

/-- The text `s` states the number `k` under the label `t`. -/
def Spec.Says (t : String) (k : ℕ) (s : String) : Prop :=
  ∃ u v, s.toList = u ++ t.toList ++ k.repr.toList ++ v ∧ ∀ c ∈ v.head?, ¬ c.isDigit

/-- **C88 is false** (label). The text of the error for transcripts of different sizes gives the other transcript's size as
`self.num_participants`. -/
theorem C88_label_false : ¬ ∀ (m : Mode) (a b : AggShare 13 (ZMod 13) (ZMod 13)) (e : PVSSError) (k : ℕ), a.aggregate m b = .err e →
    Spec.Says "self.num_participants=" k e.text → k = a.numParticipants := by
  intro h
  have := h .checked (AggShare.empty 1 4) (AggShare.empty 1 5) _ 5 (C30 _ _ _ (Or.inr (by decide))) ⟨
    ("Transcripts have different degree or number of participants: self.degree=1, other.degree=1, " ++
      "self.num_participants=4, ").toList, [], by
        set_option maxRecDepth 10000 in decide, by simp⟩
  revert this
  decide

/-- **C88 is false** (empty vectors). Two cores with encryptions but without commitments are refused with the text "Share's
encryptions vector is empty". -/
theorem C88_empty_false : ¬ ∀ (a b : PVSSCore (ZMod 13) (ZMod 13)) (e : PVSSError), a.aggregate b = .err e →
    e.text = "Share's encryptions vector is empty" → a.encs = [] ∨ b.encs = [] := by
  intro h
  have := h ⟨[1], []⟩ ⟨[1], []⟩ _ rfl rfl
  simp at this

/-- The text of an error up to its first number. -/
def Spec.head : PVSSError → String
  | .InvalidParticipantId _ => "Invalid participant ID: "
  | .MismatchedCommitsEncryptionsParticipantsError _ _ _ => "Mismatch between provided encryptions ("
  | .InsufficientCommitsInShareError _ _ => "Insufficient commitments in PVSS share. Found: "
  | .InsufficientEncryptionsInShareError _ _ => "Insufficient encryptions in PVSS share. Found: "
  | .MismatchedCommitmentsError _ _ => "Mismatched commitment vector lengths. First has: "
  | .MismatchedEncryptionsError _ _ => "Mismatched encryption vector lengths. First has: "
  | .MismatchedCommitmentsEncryptionsError _ _ =>
    "Mismatched commitment and encryption vector lengths within share. First has: "
  | .TranscriptDifferentConfig _ _ _ _ => "Transcripts have different degree or number of participants: self.degree="
  | .InsufficientDecryptionsError _ _ => "Insufficient number of decryptions provided for reconstruction Got: "
  | e => e.text

/-- The error with its numbers replaced by zero. -/
def Spec.shape : PVSSError → PVSSError
  | .InvalidParticipantId _ => .InvalidParticipantId 0
  | .MismatchedCommitsEncryptionsParticipantsError _ _ _ => .MismatchedCommitsEncryptionsParticipantsError 0 0 0
  | .InsufficientCommitsInShareError _ _ => .InsufficientCommitsInShareError 0 0
  | .InsufficientEncryptionsInShareError _ _ => .InsufficientEncryptionsInShareError 0 0
  | .MismatchedCommitmentsError _ _ => .MismatchedCommitmentsError 0 0
  | .MismatchedEncryptionsError _ _ => .MismatchedEncryptionsError 0 0
  | .MismatchedCommitmentsEncryptionsError _ _ => .MismatchedCommitmentsEncryptionsError 0 0
  | .TranscriptDifferentConfig _ _ _ _ => .TranscriptDifferentConfig 0 0 0 0
  | .InsufficientDecryptionsError _ _ => .InsufficientDecryptionsError 0 0
  | e => e

def Spec.shapes : List PVSSError :=
  [.InsufficientEvaluationsError, .DifferentPointsEvalsError, .DecompGenerationError, .InvalidParticipantId 0,
   .MismatchedCommitsEncryptionsParticipantsError 0 0 0, .DualCodeError, .GSCheckError, .EmptySharesVectorError,
   .InsufficientIdsError, .InsufficientCommitsInShareError 0 0, .InsufficientEncryptionsInShareError 0 0,
   .EmptyEncryptionsVectorError, .MismatchedCommitmentsError 0 0, .MismatchedEncryptionsError 0 0,
   .MismatchedCommitmentsEncryptionsError 0 0, .TranscriptDifferentConfig 0 0 0 0, .TranscriptDifferentCommitments,
   .DecompProofVerificationError, .InsufficientDecryptionsError 0 0, .LengthMismatchError, .EncryptionCorrectnessError,
   .DecompositionInTranscriptError, .AggregationReconstructionMismatchError, .EdDSAInvalidSignatureError,
   .InvalidSignedProofError, .NIZKProofDoesNotVerifyError, .RatioIncorrect, .EvaluationDomainError, .DifferentSRS]

theorem shape_mem (e : PVSSError) : Spec.shape e ∈ Spec.shapes := by
  cases e <;> simp [Spec.shape, Spec.shapes]

theorem head_shape (e : PVSSError) : Spec.head (Spec.shape e) = Spec.head e := by
  cases e <;> rfl

theorem ex_append (p t : String) : ∃ u, p ++ t = p ++ u := ⟨t, rfl⟩

theorem ex_append' (p : String) : ∃ u, p = p ++ u := ⟨"", String.append_empty.symm⟩

theorem ex_two (p a q b : String) : ∃ u, p ++ a ++ q ++ b = p ++ u := by
  rw [String.append_assoc, String.append_assoc]; exact ex_append _ _

theorem ex_three (p a q b q' c q'' : String) : ∃ u, p ++ a ++ q ++ b ++ q' ++ c ++ q'' = p ++ u := by
  iterate 5 rw [String.append_assoc]
  exact ex_append _ _

theorem ex_four (p a q b q' c q'' d : String) : ∃ u, p ++ a ++ q ++ b ++ q' ++ c ++ q'' ++ d = p ++ u := by
  iterate 6 rw [String.append_assoc]
  exact ex_append _ _

theorem text_eq_head (e : PVSSError) : ∃ t, e.text = Spec.head e ++ t := by
  cases e
  case InvalidParticipantId i => exact ex_append "Invalid participant ID: " i.repr
  case MismatchedCommitsEncryptionsParticipantsError a b c =>
    exact ex_three "Mismatch between provided encryptions (" a.repr " given), commitments (" b.repr
      " given), and participants (" c.repr " given)"
  case TranscriptDifferentConfig a b c d =>
    exact ex_four "Transcripts have different degree or number of participants: self.degree=" a.repr ", other.degree=" b.repr
      ", self.num_participants=" c.repr ", self.num_participants=" d.repr
  case InsufficientCommitsInShareError a b =>
    exact ex_two "Insufficient commitments in PVSS share. Found: " a.repr ", Expected: " b.repr
  case InsufficientEncryptionsInShareError a b =>
    exact ex_two "Insufficient encryptions in PVSS share. Found: " a.repr ", Expected: " b.repr
  case MismatchedCommitmentsError a b =>
    exact ex_two "Mismatched commitment vector lengths. First has: " a.repr ", Second has: " b.repr
  case MismatchedEncryptionsError a b =>
    exact ex_two "Mismatched encryption vector lengths. First has: " a.repr ", Second has: " b.repr
  case MismatchedCommitmentsEncryptionsError a b =>
    exact ex_two "Mismatched commitment and encryption vector lengths within share. First has: " a.repr ", Second has: " b.repr
  case InsufficientDecryptionsError a b =>
    exact ex_two "Insufficient number of decryptions provided for reconstruction Got: " a.repr ", Expected: >= " b.repr
  all_goals exact ex_append' _

theorem text_head (e : PVSSError) : (Spec.head e).toList <+: e.text.toList := by
  obtain ⟨t, h⟩ := text_eq_head e
  rw [h, String.toList_append]
  exact List.prefix_append _ _

theorem heads_free : ∀ e ∈ Spec.shapes, ∀ e' ∈ Spec.shapes, (Spec.head e).toList <+: (Spec.head e').toList → e = e' := by
  decide +kernel

theorem text_shape {e e' : PVSSError} (h : e.text = e'.text) : Spec.shape e = Spec.shape e' := by
  have h1 := text_head e
  have h2 := text_head e'
  rw [h] at h1
  rcases List.prefix_or_prefix_of_prefix h1 h2 with h3 | h3
  · rw [← head_shape e, ← head_shape e'] at h3
    exact heads_free _ (shape_mem e) _ (shape_mem e') h3
  · rw [← head_shape e, ← head_shape e'] at h3
    exact (heads_free _ (shape_mem e') _ (shape_mem e) h3).symm

theorem repr_inj' {a b : ℕ} (h : a.repr.toList = b.repr.toList) : a = b := by
  rw [Nat.toList_repr, Nat.toList_repr] at h
  rw [← Nat.ofDigitChars_ten_toDigits (n := a), h, Nat.ofDigitChars_ten_toDigits]

/-- A number followed by something that does not start with a digit can be read off. -/
theorem digits_append {a b : ℕ} {u v : List Char} (hu : ∀ c ∈ u.head?, ¬ c.isDigit) (hv : ∀ c ∈ v.head?, ¬ c.isDigit)
    (h : a.repr.toList ++ u = b.repr.toList ++ v) : a = b ∧ u = v := by
  have key : ∀ (n : ℕ) (w : List Char), (∀ c ∈ w.head?, ¬ c.isDigit) → (n.repr.toList ++ w).takeWhile Char.isDigit = n.repr.toList := by
    intro n w hw
    rw [List.takeWhile_append_of_pos]
    · cases w with
      | nil => simp
      | cons c w =>
        rw [List.takeWhile_cons_of_neg (hw c rfl), List.append_nil]
    · intro c hc
      rw [Nat.toList_repr] at hc
      exact Nat.isDigit_of_mem_toDigits (by omega) (by omega) hc
  have h1 := congrArg (List.takeWhile Char.isDigit) h
  rw [key a u hu, key b v hv] at h1
  refine ⟨repr_inj' h1, ?_⟩
  rw [h1] at h
  exact List.append_cancel_left h

/-- Reading one number and going on. -/
theorem read_number {q : List Char} (hq : ∀ c ∈ q.head?, ¬ c.isDigit) (hne : q ≠ []) {a b : ℕ} {u v : List Char}
    (h : a.repr.toList ++ (q ++ u) = b.repr.toList ++ (q ++ v)) : a = b ∧ u = v := by
  have hd : ∀ w : List Char, ∀ c ∈ (q ++ w).head?, ¬ c.isDigit := by
    intro w c hc
    rw [List.head?_append_of_ne_nil _ hne] at hc
    exact hq c hc
  obtain ⟨h1, h2⟩ := digits_append (hd u) (hd v) h
  exact ⟨h1, List.append_cancel_left h2⟩

theorem text_one {p : String} {a a' : ℕ} (h : p ++ a.repr = p ++ a'.repr) : a = a' := by
  have h1 := congrArg String.toList h
  simp only [String.toList_append] at h1
  exact repr_inj' (List.append_cancel_left h1)

theorem text_two {p q : String} (hq : ∀ c ∈ q.toList.head?, ¬ c.isDigit) (hne : q.toList ≠ []) {a b a' b' : ℕ}
    (h : p ++ a.repr ++ q ++ b.repr = p ++ a'.repr ++ q ++ b'.repr) : a = a' ∧ b = b' := by
  have h1 := congrArg String.toList h
  simp only [String.toList_append, List.append_assoc] at h1
  obtain ⟨h2, h3⟩ := read_number hq hne (List.append_cancel_left h1)
  exact ⟨h2, repr_inj' h3⟩

theorem text_three {p q1 q2 q3 : String} (h1 : ∀ c ∈ q1.toList.head?, ¬ c.isDigit) (n1 : q1.toList ≠ [])
    (h2 : ∀ c ∈ q2.toList.head?, ¬ c.isDigit) (n2 : q2.toList ≠ []) (h3 : ∀ c ∈ q3.toList.head?, ¬ c.isDigit)
    {a b c a' b' c' : ℕ}
    (h : p ++ a.repr ++ q1 ++ b.repr ++ q2 ++ c.repr ++ q3 = p ++ a'.repr ++ q1 ++ b'.repr ++ q2 ++ c'.repr ++ q3) :
    a = a' ∧ b = b' ∧ c = c' := by
  have k1 := congrArg String.toList h
  simp only [String.toList_append, List.append_assoc] at k1
  obtain ⟨k2, k3⟩ := read_number h1 n1 (List.append_cancel_left k1)
  obtain ⟨k4, k5⟩ := read_number h2 n2 k3
  obtain ⟨k6, -⟩ := digits_append h3 h3 k5
  exact ⟨k2, k4, k6⟩

theorem text_four {p q1 q2 q3 : String} (h1 : ∀ c ∈ q1.toList.head?, ¬ c.isDigit) (n1 : q1.toList ≠ [])
    (h2 : ∀ c ∈ q2.toList.head?, ¬ c.isDigit) (n2 : q2.toList ≠ []) (h3 : ∀ c ∈ q3.toList.head?, ¬ c.isDigit) (n3 : q3.toList ≠ [])
    {a b c d a' b' c' d' : ℕ}
    (h : p ++ a.repr ++ q1 ++ b.repr ++ q2 ++ c.repr ++ q3 ++ d.repr =
      p ++ a'.repr ++ q1 ++ b'.repr ++ q2 ++ c'.repr ++ q3 ++ d'.repr) :
    a = a' ∧ b = b' ∧ c = c' ∧ d = d' := by
  have k1 := congrArg String.toList h
  simp only [String.toList_append, List.append_assoc] at k1
  obtain ⟨k2, k3⟩ := read_number h1 n1 (List.append_cancel_left k1)
  obtain ⟨k4, k5⟩ := read_number h2 n2 k3
  obtain ⟨k6, k7⟩ := read_number h3 n3 k5
  exact ⟨k2, k4, k6, repr_inj' k7⟩

/-- **C88** (part that holds). Different errors have different texts, also in their numbers. -/
theorem C88_text_partial (e e' : PVSSError) (h : e.text = e'.text) : e = e' := by
  have hs := text_shape h
  cases e
  case InvalidParticipantId a =>
    cases e' <;> try cases hs
    rw [text_one (p := "Invalid participant ID: ") h]
  case MismatchedCommitsEncryptionsParticipantsError a b c =>
    cases e' <;> try cases hs
    obtain ⟨rfl, rfl, rfl⟩ := text_three (p := "Mismatch between provided encryptions (") (q1 := " given), commitments (") (q2 := " given), and participants (") (q3 := " given)")
      (by decide) (by decide) (by decide) (by decide) (by decide) h
    rfl
  case InsufficientCommitsInShareError a b =>
    cases e' <;> try cases hs
    obtain ⟨rfl, rfl⟩ := text_two (p := "Insufficient commitments in PVSS share. Found: ")
      (q := ", Expected: ") (by decide) (by decide) h
    rfl
  case InsufficientEncryptionsInShareError a b =>
    cases e' <;> try cases hs
    obtain ⟨rfl, rfl⟩ := text_two (p := "Insufficient encryptions in PVSS share. Found: ")
      (q := ", Expected: ") (by decide) (by decide) h
    rfl
  case MismatchedCommitmentsError a b =>
    cases e' <;> try cases hs
    obtain ⟨rfl, rfl⟩ := text_two (p := "Mismatched commitment vector lengths. First has: ")
      (q := ", Second has: ") (by decide) (by decide) h
    rfl
  case MismatchedEncryptionsError a b =>
    cases e' <;> try cases hs
    obtain ⟨rfl, rfl⟩ := text_two (p := "Mismatched encryption vector lengths. First has: ")
      (q := ", Second has: ") (by decide) (by decide) h
    rfl
  case MismatchedCommitmentsEncryptionsError a b =>
    cases e' <;> try cases hs
    obtain ⟨rfl, rfl⟩ := text_two (p := "Mismatched commitment and encryption vector lengths within share. First has: ")
      (q := ", Second has: ") (by decide) (by decide) h
    rfl
  case TranscriptDifferentConfig a b c d =>
    cases e' <;> try cases hs
    obtain ⟨rfl, rfl, rfl, rfl⟩ := text_four
      (p := "Transcripts have different degree or number of participants: self.degree=") (q1 := ", other.degree=") (q2 := ", self.num_participants=")
      (q3 := ", self.num_participants=") (by decide) (by decide) (by decide) (by decide) (by decide) (by decide) h
    rfl
  case InsufficientDecryptionsError a b =>
    cases e' <;> try cases hs
    obtain ⟨rfl, rfl⟩ := text_two (p := "Insufficient number of decryptions provided for reconstruction Got: ")
      (q := ", Expected: >= ") (by decide) (by decide) h
    rfl
  all_goals
    revert hs
    cases e' <;> intro hs <;> first | rfl | exact absurd hs (by simp [Spec.shape])

/-- **C88** (part that holds, merging cores). The text "Share's encryptions vector is empty" means that the commitments are missing;
every other text gives the lengths of the two vectors that it names, and these differ. -/
theorem C88_core_partial (a b : PVSSCore G1 G2) (e : PVSSError) (h : a.aggregate b = .err e) :
    (e.text = "Share's encryptions vector is empty" ∧ a.comms = []) ∨
    (e.text = "Mismatched commitment vector lengths. First has: " ++ a.comms.length.repr ++ ", Second has: " ++
      b.comms.length.repr ∧ a.comms.length ≠ b.comms.length) ∨
    (e.text = "Mismatched encryption vector lengths. First has: " ++ a.encs.length.repr ++ ", Second has: " ++
      b.encs.length.repr ∧ a.encs.length ≠ b.encs.length) ∨
    (e.text = "Mismatched commitment and encryption vector lengths within share. First has: " ++ a.comms.length.repr ++
      ", Second has: " ++ a.encs.length.repr ∧ a.comms.length ≠ a.encs.length) := by
  obtain ⟨h1, h2, h3, h4, h5, -⟩ := C22 a b
  by_cases c1 : a.comms = []
  · rw [h2 c1] at h; cases h
    exact Or.inl ⟨rfl, c1⟩
  by_cases c2 : a.comms.length = b.comms.length
  swap
  · rw [h3 c1 c2] at h; cases h
    exact Or.inr (Or.inl ⟨rfl, c2⟩)
  by_cases c3 : a.encs.length = b.encs.length
  swap
  · rw [h4 c1 c2 c3] at h; cases h
    exact Or.inr (Or.inr (Or.inl ⟨rfl, c3⟩))
  by_cases c4 : a.comms.length = a.encs.length
  swap
  · rw [h5 c1 c2 c3 c4] at h; cases h
    exact Or.inr (Or.inr (Or.inr ⟨by rw [c3]; rfl, c4⟩))
  exfalso
  have hc := (coreAggregate_iff a b ⟨_, _⟩).2 ⟨c1, c2, c3, c4, rfl, rfl⟩
  rw [hc] at h; cases h

/-- **C88** (part that holds, merging transcripts). The two texts of transcript aggregation; the last number of the first is the
size of the other transcript. -/
theorem C88_tx_partial (m : Mode) (a b : AggShare r G1 G2) (e : PVSSError) (h : a.aggregate m b = .err e) :
    (e.text = "Transcripts have different degree or number of participants: self.degree=" ++ a.degree.repr ++
      ", other.degree=" ++ b.degree.repr ++ ", self.num_participants=" ++ a.numParticipants.repr ++
      ", self.num_participants=" ++ b.numParticipants.repr ∧
      ¬ (a.degree = b.degree ∧ a.numParticipants = b.numParticipants)) ∨
    (e.text = "Transcripts have different commitments" ∧
      ∃ i x w y w', a.contributions.get i = some (x, w) ∧ b.contributions.get i = some (y, w') ∧
        x.decompProof.gs ≠ y.decompProof.gs) := by
  rcases aggregate_err h with ⟨h1, rfl⟩ | ⟨-, -, rfl, i, -, x, w, y, w', h1, h2, h3⟩
  · exact Or.inl ⟨rfl, by tauto⟩
  · exact Or.inr ⟨rfl, i, x, w, y, w', h1, h2, h3⟩

/-! ### Examples -/

theorem Toy.degreeTest_fails : ¬ Spec.DegreeTest (r := 13) 1 ([0, 0, 0, 1] : List (ZMod 13)) (fun k => if k = 0 then 1 else 0) := by
  unfold Spec.DegreeTest
  show ¬ ∑ i : Fin 4, _ = _
  rw [Fin.sum_univ_four]
  simp only [List.length_cons, List.length_nil, Fin.getElem_fin]
  simp [prod_eq_zero_iff]
  decide

/-- Non-vacuity of C87: a transcript refused for its degree, and indeed its commitments are no codeword. -/
example : Toy.agg.aggregationVerify (Toy.suite 13) .checked (fun k => if k = 0 then 1 else 0)
      ⟨4, 1, ⟨[1, 2, 3, 4], [0, 0, 0, 1]⟩, BMap.empty⟩ = .err .DualCodeError ∧
    ¬ Spec.Codeword 13 1 ([0, 0, 0, 1] : List (ZMod 13)) := by
  have h := ((C71 (Toy.suite 13) (Toy.pairLaws 13) (Toy.hashTotal 13) .checked Toy.agg (fun k => if k = 0 then 1 else 0)
    ⟨4, 1, ⟨[1, 2, 3, 4], [0, 0, 0, 1]⟩, BMap.empty⟩ (by decide) (by decide) (by decide)).2 ⟨rfl, rfl⟩).1 Toy.degreeTest_fails
  exact ⟨h, C87_agg (Toy.suite 13) (Toy.pairLaws 13) (Toy.hashTotal 13) .checked Toy.agg _ _ (by decide) (by decide) (by decide)
    _ h⟩

/-- Non-vacuity of C88: the texts of two errors with numbers. -/
example : (PVSSError.MismatchedCommitsEncryptionsParticipantsError 3 4 12).text =
    "Mismatch between provided encryptions (3 given), commitments (4 given), and participants (12 given)" ∧
    (PVSSError.InvalidParticipantId 17).text ≠ (PVSSError.InvalidParticipantId 71).text :=
  ⟨by decide +kernel, fun h => by cases C88_text_partial _ _ h⟩

end Verif
