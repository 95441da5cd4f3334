import Verif.Props.Truth

/-!
# C133: two corrected texts make C88 true

C88 is false for two texts of errors.rs: the last label of `TranscriptDifferentConfig` (line 39) and the text of
`EmptyEncryptionsVectorError` (line 31), which pvss.rs:36-38 returns when the commitments are missing. Here only these two texts are changed.
-/

set_option linter.unusedSectionVars false

namespace Verif

variable {r : ℕ} [Fact r.Prime] {G1 G2 K : Type}
  [AddCommGroup G1] [DecidableEq G1] [AddCommGroup G2] [DecidableEq G2] [Module (ZMod r) G1] [Module (ZMod r) G2]

/-- `Display` of `PVSSError` with two texts corrected. -/
def Spec.fixedText : PVSSError → String
  | .EmptyEncryptionsVectorError => "Share's commitments vector is empty"
  | .TranscriptDifferentConfig a b c d =>
    "Transcripts have different degree or number of participants: self.degree=" ++ a.repr ++ ", other.degree=" ++ b.repr ++
      ", self.num_participants=" ++ c.repr ++ ", other.num_participants=" ++ d.repr
  | e => e.text

/-! ### Occurrences of labels -/

theorem repr_no_eq (n : ℕ) : '=' ∉ n.repr.toList := by
  intro h
  rw [Nat.toList_repr] at h
  have := Nat.isDigit_of_mem_toDigits (by omega) (by omega) h
  revert this
  decide

/-- A label without `=` in front of an `=` stands before the first `=` of the text or after it. -/
theorem says_step {M R x y u : List Char} (hM : '=' ∉ M) (hx : '=' ∉ x) (h : u ++ (M ++ '=' :: R) = x ++ '=' :: y) :
    (M <:+ x ∧ R = y) ∨ ∃ u', u' ++ (M ++ '=' :: R) = y := by
  rw [← List.append_assoc] at h
  rcases List.append_eq_append_iff.1 h with ⟨a, h1, h2⟩ | ⟨c, h1, h2⟩
  · cases a with
    | nil =>
      rw [List.append_nil] at h1
      exact Or.inl ⟨⟨u, h1.symm⟩, (List.cons.inj h2).2⟩
    | cons b a =>
      obtain ⟨rfl, -⟩ := List.cons.inj h2
      exact absurd (by rw [h1]; simp) hx
  · cases c with
    | nil =>
      rw [List.append_nil] at h1
      exact Or.inl ⟨⟨u, h1⟩, (List.cons.inj h2).2.symm⟩
    | cons b c =>
      obtain ⟨rfl, h3⟩ := List.cons.inj h2
      have h3 : y = c ++ '=' :: R := h3
      right
      have h4 : u ++ M = (x ++ ['=']) ++ c := by simpa using h1
      rcases List.append_eq_append_iff.1 h4 with ⟨a, h5, h6⟩ | ⟨a, h5, h6⟩
      · rcases List.eq_nil_or_concat a with rfl | ⟨a', z, rfl⟩
        · exact ⟨[], by rw [h3, h6]; simp⟩
        · have : z = '=' := by
            have := congrArg List.getLast? h5
            simpa using this.symm
          exact absurd (by rw [h6, this]; simp) hM
      · exact ⟨a, by rw [h3, h6, List.append_assoc]⟩

/-- A suffix of a text with a known end. -/
theorem suffix_end {M w s : List Char} (h : M <:+ w ++ s) : M <:+ s ∨ s <:+ M :=
  List.suffix_or_suffix_of_suffix h (List.suffix_append w s)

/-- The four labels of the text of `TranscriptDifferentConfig`. -/
theorem says_labels {M R u p0 p1 p2 p3 : List Char} (a b c d : ℕ) (hM : '=' ∉ M) (h0 : '=' ∉ p0) (h1 : '=' ∉ p1) (h2 : '=' ∉ p2)
    (h3 : '=' ∉ p3)
    (h : u ++ (M ++ '=' :: R) = p0 ++ '=' :: (a.repr.toList ++ p1 ++ '=' :: (b.repr.toList ++ p2 ++ '=' ::
      (c.repr.toList ++ p3 ++ '=' :: d.repr.toList)))) :
    (M <:+ p0 ∧ R = a.repr.toList ++ p1 ++ '=' :: (b.repr.toList ++ p2 ++ '=' :: (c.repr.toList ++ p3 ++ '=' :: d.repr.toList))) ∨
    ((M <:+ p1 ∨ p1 <:+ M) ∧ R = b.repr.toList ++ p2 ++ '=' :: (c.repr.toList ++ p3 ++ '=' :: d.repr.toList)) ∨
    ((M <:+ p2 ∨ p2 <:+ M) ∧ R = c.repr.toList ++ p3 ++ '=' :: d.repr.toList) ∨
    ((M <:+ p3 ∨ p3 <:+ M) ∧ R = d.repr.toList) := by
  have hn : ∀ (n : ℕ) {p : List Char}, '=' ∉ p → '=' ∉ n.repr.toList ++ p := fun n p hp => by
    rw [List.mem_append]
    exact not_or.2 ⟨repr_no_eq n, hp⟩
  rcases says_step hM h0 h with ⟨k, e⟩ | ⟨u1, h⟩
  · exact Or.inl ⟨k, e⟩
  rcases says_step hM (hn a h1) h with ⟨k, e⟩ | ⟨u2, h⟩
  · exact Or.inr (Or.inl ⟨suffix_end k, e⟩)
  rcases says_step hM (hn b h2) h with ⟨k, e⟩ | ⟨u3, h⟩
  · exact Or.inr (Or.inr (Or.inl ⟨suffix_end k, e⟩))
  rcases says_step hM (hn c h3) h with ⟨k, e⟩ | ⟨u4, h⟩
  · exact Or.inr (Or.inr (Or.inr ⟨suffix_end k, e⟩))
  exact absurd (by rw [← h]; simp) (repr_no_eq d)

def Spec.seg0 : List Char := "Transcripts have different degree or number of participants: self.degree".toList
def Spec.seg1 : List Char := ", other.degree".toList
def Spec.seg2 : List Char := ", self.num_participants".toList
def Spec.seg3 : List Char := ", other.num_participants".toList

theorem four_segments (p q1 q2 q3 a b c d : String) {s0 s1 s2 s3 : List Char} (h0 : p.toList = s0 ++ ['=']) (h1 : q1.toList = s1 ++ ['='])
    (h2 : q2.toList = s2 ++ ['=']) (h3 : q3.toList = s3 ++ ['=']) : (p ++ a ++ q1 ++ b ++ q2 ++ c ++ q3 ++ d).toList =
      s0 ++ '=' :: (a.toList ++ s1 ++ '=' :: (b.toList ++ s2 ++ '=' :: (c.toList ++ s3 ++ '=' :: d.toList))) := by
  simp only [String.toList_append, h0, h1, h2, h3, List.append_assoc, List.nil_append, List.cons_append]

theorem config_text (a b c d : ℕ) : (Spec.fixedText (.TranscriptDifferentConfig a b c d)).toList =
    Spec.seg0 ++ '=' :: (a.repr.toList ++ Spec.seg1 ++ '=' :: (b.repr.toList ++ Spec.seg2 ++ '=' ::
      (c.repr.toList ++ Spec.seg3 ++ '=' :: d.repr.toList))) :=
  four_segments _ _ _ _ _ _ _ _ (by decide +kernel) (by decide +kernel) (by decide +kernel) (by decide +kernel)

/-- Reading a number in front of a text that does not start with a digit. -/
theorem number_eq {k n : ℕ} {v q : List Char} (hv : ∀ c ∈ v.head?, ¬ c.isDigit) (hq : ∀ c ∈ q.head?, ¬ c.isDigit)
    (h : k.repr.toList ++ v = n.repr.toList ++ q) : k = n := (digits_append hv hq h).1

theorem says_form {t : String} {M : List Char} (ht : t.toList = M ++ ['=']) {k : ℕ} {s : String} (h : Spec.Says t k s) :
    ∃ u v, s.toList = u ++ (M ++ '=' :: (k.repr.toList ++ v)) ∧ ∀ c ∈ v.head?, ¬ c.isDigit := by
  obtain ⟨u, v, h, hv⟩ := h
  exact ⟨u, v, by rw [h, ht]; simp, hv⟩

/-- The numbers that the text of `TranscriptDifferentConfig` gives under its labels. -/
theorem config_says (a b c d k : ℕ) :
    (Spec.Says "self.degree=" k (Spec.fixedText (.TranscriptDifferentConfig a b c d)) ↔ k = a) ∧
    (Spec.Says "other.degree=" k (Spec.fixedText (.TranscriptDifferentConfig a b c d)) ↔ k = b) ∧
    (Spec.Says "self.num_participants=" k (Spec.fixedText (.TranscriptDifferentConfig a b c d)) ↔ k = c) ∧
    (Spec.Says "other.num_participants=" k (Spec.fixedText (.TranscriptDifferentConfig a b c d)) ↔ k = d) := by
  have hd : ∀ (p : List Char), (p.head?.all fun c => !c.isDigit) = true → p ≠ [] → ∀ w, ∀ c ∈ (p ++ w).head?, ¬ c.isDigit := by
    intro p hp hne w c hc
    rw [List.head?_append_of_ne_nil _ hne] at hc
    rw [Option.mem_def] at hc
    rw [hc] at hp
    simpa using hp
  have q1 := hd Spec.seg1 (by decide +kernel) (by decide +kernel)
  have q2 := hd Spec.seg2 (by decide +kernel) (by decide +kernel)
  have q3 := hd Spec.seg3 (by decide +kernel) (by decide +kernel)
  refine ⟨⟨fun h => ?_, ?_⟩, ⟨fun h => ?_, ?_⟩, ⟨fun h => ?_, ?_⟩, ⟨fun h => ?_, ?_⟩⟩
  · obtain ⟨u, v, h, hv⟩ := says_form (M := "self.degree".toList) (by decide +kernel) h
    rw [config_text] at h
    rcases says_labels a b c d (by decide +kernel) (by decide +kernel) (by decide +kernel) (by decide +kernel) (by decide +kernel) h.symm with
      ⟨-, e⟩ | ⟨k, -⟩ | ⟨k, -⟩ | ⟨k, -⟩
    · rw [List.append_assoc] at e; exact number_eq hv (q1 _) e
    all_goals exact absurd k (by decide +kernel)
  · rintro rfl
    exact ⟨"Transcripts have different degree or number of participants: ".toList, _, by
      have e : Spec.seg0 = "Transcripts have different degree or number of participants: ".toList ++ "self.degree".toList := by decide +kernel
      have e' : "self.degree=".toList = "self.degree".toList ++ ['='] := by decide +kernel
      rw [config_text, e, e']
      simp only [List.append_assoc, List.singleton_append, List.append_cancel_left_eq]
      rfl, q1 _⟩
  · obtain ⟨u, v, h, hv⟩ := says_form (M := "other.degree".toList) (by decide +kernel) h
    rw [config_text] at h
    rcases says_labels a b c d (by decide +kernel) (by decide +kernel) (by decide +kernel) (by decide +kernel) (by decide +kernel) h.symm with
      ⟨k, -⟩ | ⟨-, e⟩ | ⟨k, -⟩ | ⟨k, -⟩
    · exact absurd k (by decide +kernel)
    · rw [List.append_assoc] at e; exact number_eq hv (q2 _) e
    all_goals exact absurd k (by decide +kernel)
  · rintro rfl
    exact ⟨Spec.seg0 ++ '=' :: (a.repr.toList ++ ", ".toList), _, by
      have e : Spec.seg1 = ", ".toList ++ "other.degree".toList := by decide +kernel
      have e' : "other.degree=".toList = "other.degree".toList ++ ['='] := by decide +kernel
      rw [config_text, e, e']
      simp only [List.append_assoc, List.cons_append, List.append_cancel_left_eq, List.cons.injEq, true_and]
      rfl, q2 _⟩
  · obtain ⟨u, v, h, hv⟩ := says_form (M := "self.num_participants".toList) (by decide +kernel) h
    rw [config_text] at h
    rcases says_labels a b c d (by decide +kernel) (by decide +kernel) (by decide +kernel) (by decide +kernel) (by decide +kernel) h.symm with
      ⟨k, -⟩ | ⟨k, -⟩ | ⟨-, e⟩ | ⟨k, -⟩
    · exact absurd k (by decide +kernel)
    · exact absurd k (by decide +kernel)
    · rw [List.append_assoc] at e; exact number_eq hv (q3 _) e
    · exact absurd k (by decide +kernel)
  · rintro rfl
    exact ⟨Spec.seg0 ++ '=' :: (a.repr.toList ++ Spec.seg1 ++ '=' :: (b.repr.toList ++ ", ".toList)), _, by
      have e : Spec.seg2 = ", ".toList ++ "self.num_participants".toList := by decide +kernel
      have e' : "self.num_participants=".toList = "self.num_participants".toList ++ ['='] := by decide +kernel
      rw [config_text, e, e']
      simp only [List.append_assoc, List.cons_append, List.append_cancel_left_eq, List.cons.injEq, true_and]
      rfl, q3 _⟩
  · obtain ⟨u, v, h, hv⟩ := says_form (M := "other.num_participants".toList) (by decide +kernel) h
    rw [config_text] at h
    rcases says_labels a b c d (by decide +kernel) (by decide +kernel) (by decide +kernel) (by decide +kernel) (by decide +kernel) h.symm with
      ⟨k, -⟩ | ⟨k, -⟩ | ⟨k, -⟩ | ⟨-, e⟩
    · exact absurd k (by decide +kernel)
    · exact absurd k (by decide +kernel)
    · exact absurd k (by decide +kernel)
    · exact number_eq hv (q := []) (by simp) (by rw [e, List.append_nil])
  · rintro rfl
    exact ⟨Spec.seg0 ++ '=' :: (a.repr.toList ++ Spec.seg1 ++ '=' :: (b.repr.toList ++ Spec.seg2 ++ '=' ::
        (c.repr.toList ++ ", ".toList))), [], by
      have e : Spec.seg3 = ", ".toList ++ "other.num_participants".toList := by decide +kernel
      have e' : "other.num_participants=".toList = "other.num_participants".toList ++ ['='] := by decide +kernel
      rw [config_text, e, e']
      simp only [List.append_assoc, List.cons_append, List.nil_append, List.append_nil], by simp⟩

/-! ### C133 -/

/-- **C133** (labels). When transcripts of different configuration are refused, each of the four labels is followed by the number of the
transcript that it names and by no other number; when they are refused for another reason the text has none of the labels. -/
theorem C133_label (m : Mode) (a b : AggShare r G1 G2) (e : PVSSError) (h : a.aggregate m b = .err e) (k : ℕ) :
    (Spec.Says "self.degree=" k (Spec.fixedText e) ↔ k = a.degree ∧ ¬ (a.degree = b.degree ∧ a.numParticipants = b.numParticipants)) ∧
    (Spec.Says "other.degree=" k (Spec.fixedText e) ↔ k = b.degree ∧ ¬ (a.degree = b.degree ∧ a.numParticipants = b.numParticipants)) ∧
    (Spec.Says "self.num_participants=" k (Spec.fixedText e) ↔
      k = a.numParticipants ∧ ¬ (a.degree = b.degree ∧ a.numParticipants = b.numParticipants)) ∧
    (Spec.Says "other.num_participants=" k (Spec.fixedText e) ↔
      k = b.numParticipants ∧ ¬ (a.degree = b.degree ∧ a.numParticipants = b.numParticipants)) := by
  rcases aggregate_err h with ⟨h1, rfl⟩ | ⟨h1, h2, rfl, -⟩
  · have hne : ¬ (a.degree = b.degree ∧ a.numParticipants = b.numParticipants) := by tauto
    obtain ⟨k1, k2, k3, k4⟩ := config_says a.degree b.degree a.numParticipants b.numParticipants k
    exact ⟨by rw [k1, and_iff_left hne], by rw [k2, and_iff_left hne], by rw [k3, and_iff_left hne], by rw [k4, and_iff_left hne]⟩
  · have hno : ∀ (t : String), '=' ∈ t.toList → ¬ Spec.Says t k (Spec.fixedText .TranscriptDifferentCommitments) := by
      rintro t ht ⟨u, v, hs, -⟩
      have : '=' ∈ (Spec.fixedText .TranscriptDifferentCommitments).toList := by
        rw [hs]
        simp only [List.mem_append]
        exact Or.inl (Or.inl (Or.inr ht))
      revert this
      decide +kernel
    have hc : ¬ ¬ (a.degree = b.degree ∧ a.numParticipants = b.numParticipants) := not_not.2 ⟨h1, h2⟩
    exact ⟨iff_of_false (hno _ (by decide +kernel)) fun x => hc x.2, iff_of_false (hno _ (by decide +kernel)) fun x => hc x.2,
      iff_of_false (hno _ (by decide +kernel)) fun x => hc x.2, iff_of_false (hno _ (by decide +kernel)) fun x => hc x.2⟩

/-- **C133** (merging cores). The four texts of `PVSSCore::aggregate`, each with what it says. -/
theorem C133_core (a b : PVSSCore G1 G2) (e : PVSSError) (h : a.aggregate b = .err e) :
    (Spec.fixedText e = "Share's commitments vector is empty" ∧ a.comms = []) ∨
    (Spec.fixedText e = "Mismatched commitment vector lengths. First has: " ++ a.comms.length.repr ++ ", Second has: " ++
      b.comms.length.repr ∧ a.comms.length ≠ b.comms.length) ∨
    (Spec.fixedText e = "Mismatched encryption vector lengths. First has: " ++ a.encs.length.repr ++ ", Second has: " ++
      b.encs.length.repr ∧ a.encs.length ≠ b.encs.length) ∨
    (Spec.fixedText e = "Mismatched commitment and encryption vector lengths within share. First has: " ++ a.comms.length.repr ++
      ", Second has: " ++ a.encs.length.repr ∧ a.comms.length ≠ a.encs.length) := by
  obtain ⟨h1, h2, h3, h4, h5, -⟩ := C22 a b
  by_cases c1 : a.comms = []
  · rw [h2 c1] at h; cases h
    exact Or.inl ⟨rfl, c1⟩
  by_cases c2 : a.comms.length = b.comms.length
  swap
  · rw [h3 c1 c2] at h; cases h
    exact Or.inr (Or.inl ⟨rfl, c2⟩)
  by_cases c3 : a.encs.length = b.encs.length
  swap
  · rw [h4 c1 c2 c3] at h; cases h
    exact Or.inr (Or.inr (Or.inl ⟨rfl, c3⟩))
  by_cases c4 : a.comms.length = a.encs.length
  swap
  · rw [h5 c1 c2 c3 c4] at h; cases h
    exact Or.inr (Or.inr (Or.inr ⟨by rw [c3]; rfl, c4⟩))
  exfalso
  have hc := (coreAggregate_iff a b ⟨_, _⟩).2 ⟨c1, c2, c3, c4, rfl, rfl⟩
  rw [hc] at h; cases h

/-- `Spec.head` of the corrected texts. -/
def Spec.fixedHead : PVSSError → String
  | .EmptyEncryptionsVectorError => "Share's commitments vector is empty"
  | e => Spec.head e

theorem fixed_head (e : PVSSError) : (Spec.fixedHead e).toList <+: (Spec.fixedText e).toList := by
  cases e
  case EmptyEncryptionsVectorError => exact List.prefix_rfl
  case TranscriptDifferentConfig a b c d =>
    obtain ⟨t, ht⟩ := ex_four "Transcripts have different degree or number of participants: self.degree=" a.repr ", other.degree=" b.repr
      ", self.num_participants=" c.repr ", other.num_participants=" d.repr
    show _ <+: String.toList (_ ++ a.repr ++ ", other.degree=" ++ b.repr ++ ", self.num_participants=" ++ c.repr ++ ", other.num_participants=" ++ d.repr)
    rw [ht, String.toList_append]
    exact List.prefix_append _ _
  all_goals exact text_head _

theorem fixedHeads_free : ∀ e ∈ Spec.shapes, ∀ e' ∈ Spec.shapes, (Spec.fixedHead e).toList <+: (Spec.fixedHead e').toList → e = e' := by
  decide +kernel

theorem fixedHead_shape (e : PVSSError) : Spec.fixedHead (Spec.shape e) = Spec.fixedHead e := by
  cases e <;> rfl

/-- **C133** (texts). Different errors still have different texts, also in their numbers. -/
theorem C133_text (e e' : PVSSError) (h : Spec.fixedText e = Spec.fixedText e') : e = e' := by
  have hs : Spec.shape e = Spec.shape e' := by
    have h1 := fixed_head e
    have h2 := fixed_head e'
    rw [h] at h1
    rcases List.prefix_or_prefix_of_prefix h1 h2 with h3 | h3
    · rw [← fixedHead_shape e, ← fixedHead_shape e'] at h3
      exact fixedHeads_free _ (shape_mem e) _ (shape_mem e') h3
    · rw [← fixedHead_shape e, ← fixedHead_shape e'] at h3
      exact (fixedHeads_free _ (shape_mem e') _ (shape_mem e) h3).symm
  cases e
  case TranscriptDifferentConfig a b c d =>
    cases e' <;> try cases hs
    obtain ⟨rfl, rfl, rfl, rfl⟩ := text_four
      (p := "Transcripts have different degree or number of participants: self.degree=") (q1 := ", other.degree=") (q2 := ", self.num_participants=")
      (q3 := ", other.num_participants=") (by decide) (by decide) (by decide) (by decide) (by decide) (by decide) h
    rfl
  all_goals
    cases e' <;> try cases hs
  all_goals first | rfl | exact C88_text_partial _ _ h

/-! ### Examples -/

/-- Non-vacuity of C133: the transcripts and cores of `C88_label_false` and `C88_empty_false`, now with true texts. -/
example : Spec.Says "other.num_participants=" 5 (Spec.fixedText (.TranscriptDifferentConfig 1 1 4 5)) ∧
    ¬ Spec.Says "self.num_participants=" 5 (Spec.fixedText (.TranscriptDifferentConfig 1 1 4 5)) ∧
    (∃ e, (⟨[1], []⟩ : PVSSCore (ZMod 13) (ZMod 13)).aggregate ⟨[1], []⟩ = .err e ∧
      Spec.fixedText e = "Share's commitments vector is empty") := by
  have h := C133_label .checked (AggShare.empty 1 4 : AggShare 13 (ZMod 13) (ZMod 13)) (AggShare.empty 1 5) _
    (C30 _ _ _ (Or.inr (by decide))) 5
  exact ⟨h.2.2.2.2 ⟨rfl, by decide⟩, fun k => absurd (h.2.2.1.1 k).1 (by decide), _, rfl, rfl⟩

end Verif
