import Verif.Lemmas.Dalek
import Verif.Props.EdDSA

/-!
# EdDSA as `ed25519_dalek` computes it (C97–C99)

The laws assumed of EdDSA elsewhere (`EdLaws`), derived for dalek's algorithm over an abstract curve group; what
`Signature::verify` and `Signature::verify_batch` mean there; and what signing with a wrong public half gives away.
-/

namespace Verif

open Finset EdCurve

variable {E : Type} [AddCommGroup E] [DecidableEq E] {C : EdCurve E}
  (zs : List (List UInt8) → List (Bytes 64) → List (Bytes 32) → ℕ → ℕ)

/-- The signature equation of RFC 8032 without cofactor, for points `R`, `A` and the number `s`. -/
def Spec.EdEquation (C : EdCurve E) (s k : ℕ) (R A : E) : Prop := s • C.base = R + k • A

/-- Acceptance: both points decompress, neither has small order, `s` is reduced, and the equation holds. -/
def Spec.EdValid (C : EdCurve E) (sig : Signature) (d : Digest) (pk : PublicKey) : Prop :=
  ∃ R A, C.decompress sig.part1 = some R ∧ C.decompress pk.bytes = some A ∧ Codec.leVal sig.part2.1 < edL ∧
    8 • R ≠ 0 ∧ 8 • A ≠ 0 ∧
    Spec.EdEquation C (Codec.leVal sig.part2.1) (wide (C.sha512 (sig.part1.1 ++ (pk.bytes.1 ++ d.bytes.1)))) R A

theorem strict_iff (pk : Bytes 32) (msg : List UInt8) (a b : Bytes 32) : C.strict pk msg (Bytes.append32 a b) = true ↔
    ∃ R A, C.decompress a = some R ∧ C.decompress pk = some A ∧ Codec.leVal b.1 < edL ∧ 8 • R ≠ 0 ∧ 8 • A ≠ 0 ∧
      Spec.EdEquation C (Codec.leVal b.1) (wide (C.sha512 (a.1 ++ (pk.1 ++ msg)))) R A := by
  unfold strict Spec.EdEquation
  rw [sOf_append, fst32_append]
  constructor
  · intro h
    split at h
    · rename_i hs
      split at h
      · rename_i R A hR hA
        split at h
        · cases h
        · rename_i hso
          simp only [smallOrder, Bool.or_eq_true, decide_eq_true_eq, not_or] at hso
          refine ⟨R, A, hR, hA, hs, hso.1, hso.2, ?_⟩
          have := of_decide_eq_true h
          rw [sub_eq_iff_eq_add] at this
          exact this
      · cases h
    · cases h
  · rintro ⟨R, A, hR, hA, hs, h1, h2, he⟩
    rw [if_pos hs, hR, hA]
    simp only [smallOrder, h1, h2, decide_false, Bool.or_self, Bool.false_eq_true, if_false, decide_eq_true_eq]
    rw [sub_eq_iff_eq_add]
    exact he

/-- **C97** (`Signature::verify`). -/
theorem C97_verify (sig : Signature) (d : Digest) (pk : PublicKey) :
    Signature.verify (C.ops zs) sig d pk = .ok () ↔ Spec.EdValid C sig d pk := by
  rw [(C58_verify _ _ _ _).1]
  have h3 : (C.ops zs).verifyStrict pk.bytes d.bytes.1 sig.flatten = true ↔ Spec.EdValid C sig d pk :=
    strict_iff pk.bytes d.bytes.1 sig.part1 sig.part2
  rw [h3]
  refine ⟨fun h => h.2.2, fun h => ⟨?_, ?_, h⟩⟩
  · obtain ⟨_, _, _, _, hs, _⟩ := h
    simp only [ops, decide_eq_true_eq]
    rw [Signature.flatten, sOf_append]
    exact hs.trans edL_lt
  · obtain ⟨_, A, _, hA, _⟩ := h
    simp only [ops]
    rw [hA]
    rfl

/-- **C97** (uniqueness). For a key, a digest and a first half there is at most one second half that is accepted. -/
theorem C97_unique (hC : C.Laws) (sig sig' : Signature) (d : Digest) (pk : PublicKey)
    (h : Signature.verify (C.ops zs) sig d pk = .ok ()) (h' : Signature.verify (C.ops zs) sig' d pk = .ok ())
    (h1 : sig.part1 = sig'.part1) : sig = sig' := by
  obtain ⟨R, A, hR, hA, hs, -, -, he⟩ := (C97_verify zs _ _ _).1 h
  obtain ⟨R', A', hR', hA', hs', -, -, he'⟩ := (C97_verify zs _ _ _).1 h'
  rw [← h1] at hR' he'
  obtain rfl := Option.some.inj (hR.symm.trans hR')
  obtain rfl := Option.some.inj (hA.symm.trans hA')
  have := hC.smul_inj hs hs' (he.trans he'.symm)
  have h2 : sig.part2 = sig'.part2 := by
    apply Subtype.ext
    have e := Codec.leBytes_leVal sig.part2.1
    have e' := Codec.leBytes_leVal sig'.part2.1
    rw [sig.part2.2] at e
    rw [sig'.part2.2] at e'
    rw [← e, ← e', this]
  cases sig; cases sig'; simp_all

theorem sign_eq (C : EdCurve E) (seed : Bytes 32) (pk : Bytes 32) (msg : List UInt8) :
    (C.ops zs).sign (Bytes.append32 seed pk) msg = Bytes.append32 (C.compress (C.nonce seed.1 msg • C.base))
      ⟨Codec.leBytes 32 ((C.challenge (C.compress (C.nonce seed.1 msg • C.base)).1 pk.1 msg * C.scalarOf seed.1 + C.nonce seed.1 msg) % edL),
        Codec.length_leBytes _ _⟩ := by
  simp only [ops, fst32_append, snd32_append]

/-- **C97** (laws). dalek satisfies the laws assumed of EdDSA, provided that no nonce hash is zero: then, and only then, are all
signatures accepted (`verify_strict` refuses an `R` of small order). -/
theorem C97 (hC : C.Laws) : EdLaws (C.ops zs) ↔ ∀ (seed : Bytes 32) (msg : List UInt8), C.nonce seed.1 msg ≠ 0 := by
  have hpk : ∀ seed : Bytes 32, C.decompress ((C.ops zs).derivePk seed) = some (C.scalarOf seed.1 • C.base) := fun seed => hC.round _
  have hs : ∀ n, Codec.leVal (Codec.leBytes 32 (n % edL)) = n % edL := fun n =>
    Codec.leVal_leBytes _ _ ((Nat.mod_lt _ edL_pos).trans edL_lt_bytes)
  have hv : ∀ (seed : Bytes 32) msg, (C.ops zs).verifyStrict ((C.ops zs).derivePk seed) msg
      ((C.ops zs).sign (Bytes.append32 seed ((C.ops zs).derivePk seed)) msg) = true ↔ C.nonce seed.1 msg ≠ 0 := by
    intro seed msg
    rw [sign_eq]
    refine (strict_iff _ _ _ _).trans ?_
    simp only [hs]
    constructor
    · rintro ⟨R, A, hR, -, -, h8, -⟩ h0
      rw [hC.round, h0, zero_smul] at hR
      exact h8 (by rw [← Option.some.inj hR, smul_zero])
    · intro h0
      refine ⟨_, _, hC.round _, hpk seed, Nat.mod_lt _ edL_pos, ?_, ?_, ?_⟩
      · rw [Ne, hC.small_iff]
        intro hd
        have := Nat.le_of_dvd (Nat.pos_of_ne_zero h0) hd
        have := wide_lt (C.sha512 ((C.sha512 seed.1).1.drop 32 ++ msg))
        unfold nonce at *
        omega
      · rw [Ne, hC.small_iff]
        exact not_dvd_clamp _
      · unfold Spec.EdEquation
        rw [hC.mod_smul, add_smul, mul_smul, add_comm]
        rfl
  constructor
  · exact fun h seed msg => (hv seed msg).1 (h.verifies seed msg)
  · intro h
    refine ⟨fun seed => ?_, fun seed => ?_, fun seed msg => ?_, fun seed msg => (hv seed msg).2 (h seed msg)⟩
    · show (C.decompress (snd32 _)).isSome = true
      rw [snd32_append, hpk]; rfl
    · show (C.decompress _).isSome = true
      rw [hpk]; rfl
    · show decide (sOf _ < 2 ^ 253) = true
      rw [sign_eq, sOf_append, decide_eq_true_eq]
      simp only [hs]
      exact (Nat.mod_lt _ edL_pos).trans edL_lt

/-! ### C98: batches -/

/-- The votes as triples. -/
def Spec.votesOf (d : Digest) (votes : List (PublicKey × Signature)) : List Vote :=
  votes.map fun v => (d.bytes.1, v.2.flatten, v.1.bytes)

theorem zip_votes (d : Digest) (votes : List (PublicKey × Signature)) :
    (List.replicate votes.length d.bytes.1).zip ((votes.map fun v => v.2.flatten).zip (votes.map fun v => v.1.bytes)) =
      Spec.votesOf d votes := by
  unfold Spec.votesOf
  induction votes with
  | nil => rfl
  | cons v vs ih =>
    simp only [List.length_cons, List.replicate_succ, List.map_cons, List.zip_cons_cons]
    rw [ih]

/-- `Signature::verify_batch` accepts iff all keys decompress, all `s` are reduced and the weighted sum is zero. -/
theorem verifyBatch_iff (d : Digest) (votes : List (PublicKey × Signature)) :
    Signature.verifyBatch (C.ops zs) d votes = .ok () ↔
      (∀ v ∈ votes, Codec.leVal v.2.part2.1 < edL ∧ (C.decompress v.1.bytes).isSome) ∧
      C.batchSum (zs (List.replicate votes.length d.bytes.1) (votes.map fun v => v.2.flatten) (votes.map fun v => v.1.bytes)) 0
        (Spec.votesOf d votes) = some 0 := by
  obtain ⟨hb1, hb2, -⟩ := C58_batch (C.ops zs) d votes
  have hsig : ∀ v : PublicKey × Signature, (C.ops zs).sigOk v.2.flatten = true ↔ Codec.leVal v.2.part2.1 < 2 ^ 253 := fun v => by
    simp only [ops, decide_eq_true_eq]
    rw [Signature.flatten, sOf_append]
  by_cases hok : ∀ v ∈ votes, (C.ops zs).sigOk v.2.flatten = true ∧ (C.ops zs).pkOk v.1.bytes = true
  · rw [hb2 hok]
    simp only [ops, batch]
    rw [if_pos (by simp), zip_votes]
    constructor
    · intro h
      split at h
      · rename_i hall
        refine ⟨fun v hv => ⟨?_, (hok v hv).2⟩, of_decide_eq_true h⟩
        have := List.all_eq_true.1 hall v.2.flatten (List.mem_map.2 ⟨v, hv, rfl⟩)
        rw [decide_eq_true_eq, Signature.flatten, sOf_append] at this
        exact this
      · cases h
    · rintro ⟨h1, h2⟩
      rw [if_pos, decide_eq_true_eq]
      · exact h2
      · rw [List.all_eq_true]
        intro s hs
        obtain ⟨v, hv, rfl⟩ := List.mem_map.1 hs
        rw [decide_eq_true_eq, Signature.flatten, sOf_append]
        exact (h1 v hv).1
  · constructor
    · intro h
      rw [hb1 (by
        push Not at hok
        obtain ⟨v, hv, h⟩ := hok
        refine ⟨v, hv, ?_⟩
        by_cases h1 : (C.ops zs).sigOk v.2.flatten = true
        · exact .inr (by simpa using h h1)
        · exact .inl (by simpa using h1))] at h
      cases h
    · rintro ⟨h, -⟩
      exact absurd (fun v hv => ⟨(hsig v).2 ((h v hv).1.trans edL_lt), (h v hv).2⟩) hok

/-- **C98** (lengths). The three lists given to dalek must have the same length; those of `Signature::verify_batch` have. -/
theorem C98_lengths (ms : List (List UInt8)) (ss : List (Bytes 64)) (ks : List (Bytes 32))
    (h : (C.ops zs).verifyBatch ms ss ks = true) : ss.length = ms.length ∧ ss.length = ks.length := by
  simp only [ops, batch] at h
  split at h
  · assumption
  · cases h

/-- **C98, the claim**: a batch is accepted exactly if every vote in it is. -/
def C98_claim (C : EdCurve E) : Prop :=
  ∀ zs d votes, Signature.verifyBatch (C.ops zs) d votes = .ok () ↔ ∀ v ∈ votes, Signature.verify (C.ops zs) v.2 d v.1 = .ok ()

/-- The vote of the neutral element: `R = A = 0`, `s = 0`. -/
def Spec.identityVote (C : EdCurve E) : PublicKey × Signature :=
  (⟨C.compress 0⟩, ⟨C.compress 0, ⟨Codec.leBytes 32 0, Codec.length_leBytes _ _⟩⟩)

/-- **C98** (the neutral key). One vote passes batch verification for every digest with all weights, though `verify` refuses it. -/
theorem C98_identity (hC : C.Laws) (d : Digest) : Signature.verifyBatch (C.ops zs) d [Spec.identityVote C] = .ok () ∧
    Signature.verify (C.ops zs) (Spec.identityVote C).2 d (Spec.identityVote C).1 ≠ .ok () := by
  have h0 : Codec.leVal (Codec.leBytes 32 0) = 0 := Codec.leVal_leBytes _ _ (by norm_num)
  constructor
  · rw [verifyBatch_iff]
    refine ⟨fun v hv => ?_, ?_⟩
    · obtain rfl : v = Spec.identityVote C := by simpa using hv
      simp only [Spec.identityVote, h0, hC.round]
      exact ⟨edL_pos, rfl⟩
    · rw [batchSum_eq hC _ _ (fun v hv => ?_)]
      · rw [Option.some.injEq]
        refine sum_eq_zero fun j _ => ?_
        have hj : (Spec.votesOf d [Spec.identityVote C])[j] = (d.bytes.1, (Spec.identityVote C).2.flatten, (Spec.identityVote C).1.bytes) := by
          exact List.mem_singleton.1 (List.getElem_mem j.2)
        rw [hj]
        simp only [defect, Signature.flatten, fst32_append, sOf_append, Spec.identityVote, hC.round, h0, Option.getD_some, smul_zero,
          zero_smul, add_zero, sub_zero]
      · obtain rfl : v = (d.bytes.1, (Spec.identityVote C).2.flatten, (Spec.identityVote C).1.bytes) := by simpa [Spec.votesOf] using hv
        refine ⟨0, 0, ?_, ?_⟩
        · simp only [Signature.flatten, fst32_append, Spec.identityVote, hC.round, zero_smul]
        · simp only [Spec.identityVote, hC.round, zero_smul]
  · rw [Ne, C97_verify]
    rintro ⟨R, A, hR, -, -, h8, -⟩
    simp only [Spec.identityVote, hC.round, Option.some.injEq] at hR
    exact h8 (by rw [← hR, smul_zero])

theorem C98_false (hC : C.Laws) : ¬ C98_claim C := fun h => by
  have h1 := C98_identity (fun _ _ _ _ => 1) hC ⟨⟨List.replicate 32 0, by simp⟩⟩
  exact h1.2 ((h _ _ _).1 h1.1 _ (by simp))

/-- **C98** (the other direction). A single vote that `verify` accepts passes batch verification with weight `z` iff
`⌊k z / edL⌋` times the small-order part of the key vanishes: valid votes of keys with a small-order part are refused for some
weights. -/
theorem C98_single (hC : C.Laws) (d : Digest) (pk : PublicKey) (sig : Signature) (A : E) (hA : C.decompress pk.bytes = some A)
    (hv : Signature.verify (C.ops zs) sig d pk = .ok ()) :
    Signature.verifyBatch (C.ops zs) d [(pk, sig)] = .ok () ↔
      (wide (C.sha512 (sig.part1.1 ++ (pk.bytes.1 ++ d.bytes.1))) * zs [d.bytes.1] [sig.flatten] [pk.bytes] 0 / edL) • (edL • A) = 0 := by
  obtain ⟨R, A', hR, hA', hs, -, -, he⟩ := (C97_verify zs _ _ _).1 hv
  obtain rfl := Option.some.inj (hA.symm.trans hA')
  rw [verifyBatch_iff]
  have hpre : ∀ v ∈ [(pk, sig)], Codec.leVal v.2.part2.1 < edL ∧ (C.decompress v.1.bytes).isSome := by
    intro v hv
    obtain rfl : v = (pk, sig) := by simpa using hv
    exact ⟨hs, by rw [hA]; rfl⟩
  rw [and_iff_right hpre]
  simp only [List.length_singleton, List.replicate_one, List.map_cons, List.map_nil, Spec.votesOf, batchSum, batchTerm,
    Signature.flatten, fst32_append, sOf_append, hR, hA, Option.bind_eq_bind, Option.bind_some, Option.some.injEq, add_zero]
  generalize zs _ _ _ _ = z
  unfold challenge
  generalize wide (C.sha512 (sig.part1.1 ++ (pk.bytes.1 ++ d.bytes.1))) = k at *
  unfold Spec.EdEquation at he
  rw [hC.mod_smul, mul_smul z, he, smul_add, add_sub_add_left_eq_sub, smul_smul, ← mul_smul, mul_comm z k]
  have hsplit : (k * z) • A = (k * z % edL) • A + (k * z / edL * edL) • A := by
    rw [← add_smul, Nat.mod_add_div']
  rw [hsplit, sub_add_cancel_left, neg_eq_zero]

/-- The points of a vote are non-zero multiples of the base point. -/
def Spec.InPrimeGroup (C : EdCurve E) (v : PublicKey × Signature) : Prop :=
  ∃ a b : ℕ, C.decompress v.2.part1 = some (a • C.base) ∧ C.decompress v.1.bytes = some (b • C.base) ∧ ¬ edL ∣ a ∧ ¬ edL ∣ b

/-- Weights from a tuple. -/
def Spec.weights {n : ℕ} (z : Fin n → Fin (2 ^ 128)) : List (List UInt8) → List (Bytes 64) → List (Bytes 32) → ℕ → ℕ :=
  fun _ _ _ i => if h : i < n then z ⟨i, h⟩ else 0

/-- **C98, the part that holds**: for votes whose points are non-zero multiples of the base point, a batch of valid votes is
accepted with all weights; a batch with an invalid vote is accepted for at most a `2^-128` fraction of the 128-bit weights. -/
theorem C98_partial (hC : C.Laws) (d : Digest) (votes : List (PublicKey × Signature))
    (hg : ∀ v ∈ votes, Spec.InPrimeGroup C v) :
    ((∀ v ∈ votes, Signature.verify (C.ops zs) v.2 d v.1 = .ok ()) → Signature.verifyBatch (C.ops zs) d votes = .ok ()) ∧
    ((∃ v ∈ votes, Signature.verify (C.ops zs) v.2 d v.1 ≠ .ok ()) →
      (univ.filter fun z : Fin votes.length → Fin (2 ^ 128) =>
        Signature.verifyBatch (C.ops (Spec.weights z)) d votes = .ok ()).card * 2 ^ 128 ≤ (2 ^ 128) ^ votes.length) := by
  have hgroup : ∀ v ∈ Spec.votesOf d votes, InGroup C v := by
    intro v hv
    obtain ⟨w, hw, rfl⟩ := List.mem_map.1 hv
    obtain ⟨a, b, h1, h2, -⟩ := hg w hw
    exact ⟨a, b, by rw [Signature.flatten, fst32_append]; exact h1, h2⟩
  have hlen : (Spec.votesOf d votes).length = votes.length := by simp [Spec.votesOf]
  have hget : ∀ j : Fin (Spec.votesOf d votes).length, ∃ hj : (j : ℕ) < votes.length, (Spec.votesOf d votes)[j] =
      (d.bytes.1, votes[(j : ℕ)].2.flatten, votes[(j : ℕ)].1.bytes) := fun j =>
    ⟨by have := j.2; omega, List.getElem_map _⟩
  have hdef : ∀ v ∈ votes, Codec.leVal v.2.part2.1 < edL →
      (C.defect (d.bytes.1, v.2.flatten, v.1.bytes) = 0 ↔ Signature.verify (C.ops zs) v.2 d v.1 = .ok ()) := by
    intro v hv hs
    obtain ⟨a, b, h1, h2, h3, h4⟩ := hg v hv
    rw [C97_verify]
    simp only [defect, Signature.flatten, fst32_append, sOf_append, h1, h2, Option.getD_some]
    rw [sub_eq_zero]
    constructor
    · intro h
      exact ⟨_, _, h1, h2, hs, by rw [Ne, hC.small_iff]; exact h3, by rw [Ne, hC.small_iff]; exact h4, h.symm⟩
    · rintro ⟨R, A, hR, hA, -, -, -, he⟩
      rw [h1] at hR
      rw [h2] at hA
      obtain rfl := Option.some.inj hR
      obtain rfl := Option.some.inj hA
      exact he.symm
  constructor
  · intro h
    rw [verifyBatch_iff]
    have hsz : ∀ v ∈ votes, Codec.leVal v.2.part2.1 < edL ∧ (C.decompress v.1.bytes).isSome := by
      intro v hv
      obtain ⟨R, A, hR, hA, hs, -⟩ := (C97_verify zs _ _ _).1 (h v hv)
      exact ⟨hs, by rw [hA]; rfl⟩
    refine ⟨hsz, ?_⟩
    rw [batchSum_eq hC _ _ hgroup, Option.some.injEq]
    refine sum_eq_zero fun j _ => ?_
    obtain ⟨hj, he⟩ := hget j
    have hm := List.getElem_mem hj
    rw [he, (hdef _ hm (hsz _ hm).1).2 (h _ hm), smul_zero]
  · rintro ⟨v, hv, hbad⟩
    by_cases hsz : ∀ v ∈ votes, Codec.leVal v.2.part2.1 < edL
    · obtain ⟨j, hj, rfl⟩ := List.getElem_of_mem hv
      obtain ⟨a, b, h1, h2, -⟩ := hg _ hv
      have hT : C.defect (d.bytes.1, votes[j].2.flatten, votes[j].1.bytes) ≠ 0 := fun h0 =>
        hbad ((hdef _ hv (hsz _ hv)).1 h0)
      let T : Fin votes.length → E := fun i => C.defect (d.bytes.1, votes[(i : ℕ)].2.flatten, votes[(i : ℕ)].1.bytes)
      have hc : ∃ c : ℕ, T ⟨j, hj⟩ = c • C.base := by
        refine ⟨a + C.challenge votes[j].2.part1.1 votes[j].1.bytes.1 d.bytes.1 * b +
          (edL - Codec.leVal votes[j].2.part2.1), ?_⟩
        simp only [T, defect, Signature.flatten, fst32_append, sOf_append, h1, h2, Option.getD_some]
        rw [add_smul, add_smul, mul_smul, sub_eq_add_neg]
        congr 1
        rw [eq_comm, ← sub_eq_zero, sub_neg_eq_add, ← add_smul, Nat.sub_add_cancel (hsz _ hv).le, hC.order]
      obtain ⟨c, hc⟩ := hc
      refine le_trans (Nat.mul_le_mul_right _ (card_le_card ?_)) (card_weights hC (by decide +kernel) T ⟨j, hj⟩ c hc hT)
      intro z hz
      rw [mem_filter] at hz ⊢
      refine ⟨mem_univ _, ?_⟩
      have := ((verifyBatch_iff _ _ _).1 hz.2).2
      rw [batchSum_eq hC _ _ hgroup, Option.some.injEq] at this
      rw [← this]
      refine Fintype.sum_equiv (finCongr hlen.symm) _ _ fun i => ?_
      have hi := i.2
      simp only [Spec.weights, T, finCongr_apply, Fin.val_cast, zero_add]
      rw [dif_pos hi]
      congr 1
      obtain ⟨hj, he⟩ := hget (Fin.cast hlen.symm i)
      rw [he]
      rfl
    · have : (univ.filter fun z : Fin votes.length → Fin (2 ^ 128) =>
          Signature.verifyBatch (C.ops (Spec.weights z)) d votes = .ok ()) = ∅ := by
        rw [filter_eq_empty_iff]
        intro z _ h
        exact hsz fun v hv => (((verifyBatch_iff _ _ _).1 h).1 v hv).1
      rw [this, card_empty, zero_mul]
      exact Nat.zero_le _

/-! ### C98: honest batches -/

/-- What `Signature::new` computes from a seed and the stored public half. -/
theorem new_ok {sig : Signature} {d : Digest} {seed pk : Bytes 32}
    (h : (Signature.new (C.ops zs) d ⟨Bytes.append32 seed pk⟩ : Res CryptoError _) = .ok sig) :
    sig.part1 = C.compress (C.nonce seed.1 d.bytes.1 • C.base) ∧
    Codec.leVal sig.part2.1 = (C.challenge sig.part1.1 pk.1 d.bytes.1 * C.scalarOf seed.1 + C.nonce seed.1 d.bytes.1) % edL := by
  have hk : (C.ops zs).keypairOk (Bytes.append32 seed pk) = true := by
    by_contra hk
    rw [(C58_split (C.ops zs) ⟨Bytes.append32 seed pk⟩ d).2 (by simpa using hk)] at h
    cases h
  obtain ⟨sig', h1, h2⟩ := (C58_split (ε := CryptoError) (C.ops zs) ⟨Bytes.append32 seed pk⟩ d).1 hk
  obtain rfl := Res.ok.inj (h.symm.trans h1)
  simp only [sign_eq] at h2
  have e1 := congrArg fst32 h2
  have e2 := congrArg snd32 h2
  rw [Signature.flatten, fst32_append, fst32_append] at e1
  rw [Signature.flatten, snd32_append, snd32_append] at e2
  refine ⟨e1, ?_⟩
  rw [e2, e1]
  exact Codec.leVal_leBytes _ _ ((Nat.mod_lt _ edL_pos).trans edL_lt_bytes)

/-- **C98** (honest votes). A batch of votes of generated keys is accepted with all weights, even if a nonce is zero. -/
theorem C98_honest (hC : C.Laws) (d : Digest) (votes : List (PublicKey × Signature))
    (hv : ∀ v ∈ votes, ∃ seed, v.1 = (generateKeypair (C.ops zs) seed).1 ∧
      (Signature.new (C.ops zs) d (generateKeypair (C.ops zs) seed).2 : Res CryptoError _) = .ok v.2) :
    Signature.verifyBatch (C.ops zs) d votes = .ok () := by
  rw [verifyBatch_iff]
  have hform : ∀ v ∈ votes, Codec.leVal v.2.part2.1 < edL ∧ InGroup C (d.bytes.1, v.2.flatten, v.1.bytes) ∧
      C.defect (d.bytes.1, v.2.flatten, v.1.bytes) = 0 := by
    intro v hm
    obtain ⟨seed, h1, h2⟩ := hv v hm
    obtain ⟨h3, h4⟩ := new_ok zs h2
    have hpk : v.1.bytes = C.compress (C.scalarOf seed.1 • C.base) := congrArg PublicKey.bytes h1
    have hdR : C.decompress (fst32 v.2.flatten) = some (C.nonce seed.1 d.bytes.1 • C.base) := by
      rw [Signature.flatten, fst32_append, h3, hC.round]
    have hdA : C.decompress v.1.bytes = some (C.scalarOf seed.1 • C.base) := by rw [hpk, hC.round]
    refine ⟨h4 ▸ Nat.mod_lt _ edL_pos, ⟨_, _, hdR, hdA⟩, ?_⟩
    simp only [defect, hdR, hdA, Option.getD_some]
    rw [Signature.flatten, sOf_append, fst32_append, h4, hC.mod_smul, add_smul, mul_smul, sub_eq_zero, add_comm]
    rw [hpk]
    rfl
  have hget : ∀ v ∈ Spec.votesOf d votes, ∃ w ∈ votes, v = (d.bytes.1, w.2.flatten, w.1.bytes) := fun v h => by
    obtain ⟨w, hw, rfl⟩ := List.mem_map.1 h
    exact ⟨w, hw, rfl⟩
  refine ⟨fun v hm => ⟨(hform v hm).1, ?_⟩, ?_⟩
  · obtain ⟨-, ⟨a, b, -, hb⟩, -⟩ := hform v hm
    rw [show C.decompress v.1.bytes = some (b • C.base) from hb]
    rfl
  · rw [batchSum_eq hC _ _ fun v hm => by obtain ⟨w, hw, rfl⟩ := hget v hm; exact (hform w hw).2.1, Option.some.injEq]
    refine sum_eq_zero fun j _ => ?_
    obtain ⟨w, hw, he⟩ := hget _ (List.getElem_mem j.2)
    rw [show (Spec.votesOf d votes)[j] = _ from he, (hform w hw).2.2, smul_zero]

/-! ### C99: a wrong public half -/

/-- The scalar computed from two signatures with the same first half. -/
noncomputable def Spec.extract (k k' s s' : ℕ) : ZMod edL := ((s : ZMod edL) - s') / ((k : ZMod edL) - k')

/-- A signature computed from a scalar `x` and a nonce `ρ`, without the seed. -/
noncomputable def Spec.signWith (C : EdCurve E) (x : ZMod edL) (ρ : ℕ) (d : Digest) (pk : PublicKey) : Signature :=
  ⟨C.compress (ρ • C.base), ⟨Codec.leBytes 32 ((wide (C.sha512 ((C.compress (ρ • C.base)).1 ++ (pk.bytes.1 ++ d.bytes.1))) * x.val + ρ) % edL),
    Codec.length_leBytes _ _⟩⟩

/-- **C99**. `Keypair::from_bytes` does not compare the halves of a secret key. Let one seed be stored with two public halves, and
let both keys sign one digest. The signatures share their first half; if the challenges differ, the secret scalar is a quotient
of public numbers, and with it every digest can be signed for the seed's true public key. -/
theorem C99 (hC : C.Laws) (d : Digest) (seed pk pk' : Bytes 32) (sig sig' : Signature)
    (h : (Signature.new (C.ops zs) d ⟨Bytes.append32 seed pk⟩ : Res CryptoError _) = .ok sig)
    (h' : (Signature.new (C.ops zs) d ⟨Bytes.append32 seed pk'⟩ : Res CryptoError _) = .ok sig') :
    sig.part1 = sig'.part1 ∧
    let k := wide (C.sha512 (sig.part1.1 ++ (pk.1 ++ d.bytes.1)))
    let k' := wide (C.sha512 (sig'.part1.1 ++ (pk'.1 ++ d.bytes.1)))
    let x := Spec.extract k k' (Codec.leVal sig.part2.1) (Codec.leVal sig'.part2.1)
    k ≠ k' → x = C.scalarOf seed.1 ∧ ∀ (e : Digest) (ρ : ℕ), ¬ edL ∣ ρ →
      Signature.verify (C.ops zs) (Spec.signWith C x ρ e (generateKeypair (C.ops zs) seed).1) e
        (generateKeypair (C.ops zs) seed).1 = .ok () := by
  obtain ⟨h1, h2⟩ := new_ok zs h
  obtain ⟨h1', h2'⟩ := new_ok zs h'
  refine ⟨h1.trans h1'.symm, ?_⟩
  intro k k' x hk
  have hx : x = C.scalarOf seed.1 := by
    have e : ((Codec.leVal sig.part2.1 : ℕ) : ZMod edL) = k * C.scalarOf seed.1 + C.nonce seed.1 d.bytes.1 := by
      rw [h2, ZMod.natCast_mod]; push_cast; rfl
    have e' : ((Codec.leVal sig'.part2.1 : ℕ) : ZMod edL) = k' * C.scalarOf seed.1 + C.nonce seed.1 d.bytes.1 := by
      rw [h2', ZMod.natCast_mod]; push_cast; rfl
    have hne : (k : ZMod edL) - k' ≠ 0 := by
      rw [sub_ne_zero, Ne, ZMod.natCast_eq_natCast_iff']
      rwa [Nat.mod_eq_of_lt (wide_lt _), Nat.mod_eq_of_lt (wide_lt _)]
    simp only [x, Spec.extract]
    rw [div_eq_iff hne, e, e']
    ring
  refine ⟨hx, fun e ρ hρ => (C97_verify zs _ _ _).2 ?_⟩
  have hs : ∀ n, Codec.leVal (Codec.leBytes 32 (n % edL)) = n % edL := fun n =>
    Codec.leVal_leBytes _ _ ((Nat.mod_lt _ edL_pos).trans edL_lt_bytes)
  refine ⟨ρ • C.base, C.scalarOf seed.1 • C.base, hC.round _, hC.round _, ?_, ?_, ?_, ?_⟩
  · simp only [Spec.signWith, hs]
    exact Nat.mod_lt _ edL_pos
  · rw [Ne, hC.small_iff]; exact hρ
  · rw [Ne, hC.small_iff]; exact not_dvd_clamp _
  · simp only [Spec.signWith, hs, Spec.EdEquation]
    rw [hx, ZMod.val_natCast, hC.mod_smul, add_smul, mul_smul, hC.mod_smul, add_comm]

/-! ### examples -/

instance : NeZero (8 * edL) := ⟨by decide +kernel⟩

/-- A cyclic group of order `8 edL`, with a given hash function. -/
def Toy.edCurve (h : List UInt8 → ℕ) : EdCurve (ZMod (8 * edL)) where
  base := 8
  compress P := ⟨Codec.leBytes 32 P.val, Codec.length_leBytes _ _⟩
  decompress b := some (Codec.leVal b.1 : ℕ)
  sha512 l := ⟨Codec.leBytes 64 (h l), Codec.length_leBytes _ _⟩

theorem Toy.edCurve_laws (h : List UInt8 → ℕ) : (Toy.edCurve h).Laws where
  order := by
    show edL • ((8 : ℕ) : ZMod (8 * edL)) = 0
    rw [nsmul_eq_mul, ← Nat.cast_mul, mul_comm, ZMod.natCast_self]
  base_ne := by
    show ((8 : ℕ) : ZMod (8 * edL)) ≠ 0
    rw [Ne, ZMod.natCast_eq_zero_iff]
    exact fun hd => absurd (Nat.le_of_dvd (by norm_num) hd) (by decide +kernel)
  round P := by
    show some ((Codec.leVal (Codec.leBytes 32 P.val) : ℕ) : ZMod (8 * edL)) = some P
    rw [Codec.leVal_leBytes _ _ ((ZMod.val_lt P).trans (by decide +kernel)), ZMod.natCast_zmod_val]

/-- Non-vacuity of C97: a hash without zeros gives all laws of EdDSA. -/
example : EdLaws ((Toy.edCurve fun l => Toy.checksum l + 1).ops fun _ _ _ i => i + 1) := by
  refine (C97 _ (Toy.edCurve_laws _)).2 fun seed msg => ?_
  have hc : ∀ l, Toy.checksum l < 251 := fun l => by
    have : ∀ (l : List UInt8) s, s < 251 → l.foldl (fun s b => (3 * s + b.toNat + 7) % 251) s < 251 := by
      intro l
      induction l with
      | nil => exact fun s h => h
      | cons b l ih => exact fun s _ => ih _ (Nat.mod_lt _ (by norm_num))
    exact this l 1 (by norm_num)
  simp only [EdCurve.nonce, EdCurve.wide, Toy.edCurve]
  rw [Codec.leVal_leBytes _ _ (lt_trans (Nat.succ_lt_succ (hc _)) (by norm_num)),
    Nat.mod_eq_of_lt ((Nat.succ_lt_succ (hc _)).trans (by decide +kernel))]
  exact Nat.succ_ne_zero _

/-- A nonce that is zero: the laws fail. -/
example : ¬ EdLaws ((Toy.edCurve fun _ => 0).ops fun _ _ _ i => i + 1) := fun h =>
  (C97 _ (Toy.edCurve_laws _)).1 h ⟨List.replicate 32 0, by simp⟩ [] (by decide +kernel)

/-- A vote of a key with a small-order part: `verify` accepts, batch verification with weight 2 refuses. -/
example : ∃ (d : Digest) (pk : PublicKey) (sig : Signature),
    Signature.verify ((Toy.edCurve fun _ => edL - 1).ops fun _ _ _ _ => 2) sig d pk = .ok () ∧
    Signature.verifyBatch ((Toy.edCurve fun _ => edL - 1).ops fun _ _ _ _ => 2) d [(pk, sig)] ≠ .ok () := by
  have hC := Toy.edCurve_laws fun _ => edL - 1
  have hk : ∀ l, wide ((Toy.edCurve fun _ => edL - 1).sha512 l) = edL - 1 := fun l => by
    simp only [Toy.edCurve, wide]
    rw [Codec.leVal_leBytes _ _ (by decide +kernel), Nat.mod_eq_of_lt (by decide +kernel)]
  have h0 : Codec.leVal (Codec.leBytes 32 0) = 0 := Codec.leVal_leBytes _ _ (by norm_num)
  have hv : Signature.verify ((Toy.edCurve fun _ => edL - 1).ops fun _ _ _ _ => 2)
      ⟨(Toy.edCurve fun _ => edL - 1).compress (-((edL - 1 : ℕ) : ZMod (8 * edL))), ⟨Codec.leBytes 32 0, Codec.length_leBytes _ _⟩⟩
      ⟨⟨List.replicate 32 9, by simp⟩⟩ ⟨(Toy.edCurve fun _ => edL - 1).compress 1⟩ = .ok () := by
    rw [C97_verify]
    refine ⟨_, _, hC.round _, hC.round _, by rw [h0]; exact edL_pos, ?_, ?_, ?_⟩
    · rw [smul_neg, neg_ne_zero, nsmul_eq_mul, ← Nat.cast_mul, Ne, ZMod.natCast_eq_zero_iff]
      exact fun hd => absurd (Nat.le_of_dvd (by decide +kernel) hd) (by decide +kernel)
    · rw [nsmul_eq_mul, mul_one, Ne, ZMod.natCast_eq_zero_iff]
      exact fun hd => absurd (Nat.le_of_dvd (by norm_num) hd) (by decide +kernel)
    · unfold Spec.EdEquation
      rw [h0, zero_smul, hk, nsmul_eq_mul, mul_one, neg_add_cancel]
  refine ⟨_, _, _, hv, ?_⟩
  rw [Ne, C98_single _ hC _ _ _ 1 (hC.round 1) hv, hk]
  rw [show (edL - 1) * 2 / edL = 1 by decide +kernel, one_smul, nsmul_eq_mul, mul_one, ZMod.natCast_eq_zero_iff]
  exact fun hd => absurd (Nat.le_of_dvd edL_pos hd) (by decide +kernel)

/-- A wrong vote with points in the prime-order group: at most one weight in `2^128` lets it pass. -/
example (d : Digest) :
    (univ.filter fun z : Fin 1 → Fin (2 ^ 128) => Signature.verifyBatch ((Toy.edCurve fun _ => 5).ops (Spec.weights z)) d
      [(⟨(Toy.edCurve fun _ => 5).compress 8⟩, ⟨(Toy.edCurve fun _ => 5).compress 8, ⟨Codec.leBytes 32 0, Codec.length_leBytes _ _⟩⟩)] =
        .ok ()).card * 2 ^ 128 ≤ 2 ^ 128 := by
  have hC := Toy.edCurve_laws fun _ => 5
  have h0 : Codec.leVal (Codec.leBytes 32 0) = 0 := Codec.leVal_leBytes _ _ (by norm_num)
  have hb : (1 : ℕ) • (Toy.edCurve fun _ => 5).base = 8 := one_smul _ _
  have hk : ∀ l, wide ((Toy.edCurve fun _ => 5).sha512 l) = 5 := fun l => by
    simp only [Toy.edCurve, wide]
    rw [Codec.leVal_leBytes _ _ (by decide +kernel), Nat.mod_eq_of_lt (by decide +kernel)]
  refine ((C98_partial (fun _ _ _ _ => 1) hC d _ ?_).2 ⟨_, List.mem_singleton_self _, ?_⟩).trans_eq (pow_one _)
  · intro v hv
    obtain rfl := List.mem_singleton.1 hv
    refine ⟨1, 1, ?_, ?_, ?_, ?_⟩
    · rw [hb]; exact hC.round 8
    · rw [hb]; exact hC.round 8
    · rw [Nat.dvd_one]; decide +kernel
    · rw [Nat.dvd_one]; decide +kernel
  · rw [Ne, C97_verify]
    rintro ⟨R, A, hR, hA, -, -, -, he⟩
    obtain rfl := Option.some.inj ((hC.round 8).symm.trans hR)
    obtain rfl := Option.some.inj ((hC.round 8).symm.trans hA)
    unfold Spec.EdEquation at he
    simp only [h0, zero_smul, hk] at he
    have : ((48 : ℕ) : ZMod (8 * edL)) = 0 := by rw [he]; norm_num
    rw [ZMod.natCast_eq_zero_iff] at this
    exact absurd (Nat.le_of_dvd (by norm_num) this) (by decide +kernel)

/-- Non-vacuity of C99: the seed of zeros with two public halves gives its scalar away. -/
example (d : Digest) (hd : d = ⟨⟨List.replicate 32 7, by simp⟩⟩) (seed : Bytes 32) (hseed : seed = ⟨List.replicate 32 0, by simp⟩) :
    let C := Toy.edCurve fun l => Toy.checksum l + 1
    let ops := C.ops fun _ _ _ _ => 1
    ∃ sig sig' : Signature, (Signature.new ops d ⟨Bytes.append32 seed (C.compress 8)⟩ : Res CryptoError _) = .ok sig ∧
    (Signature.new ops d ⟨Bytes.append32 seed (C.compress 16)⟩ : Res CryptoError _) = .ok sig' ∧
    Spec.extract (wide (C.sha512 (sig.part1.1 ++ ((C.compress 8).1 ++ d.bytes.1))))
      (wide (C.sha512 (sig'.part1.1 ++ ((C.compress 16).1 ++ d.bytes.1)))) (Codec.leVal sig.part2.1) (Codec.leVal sig'.part2.1) =
        C.scalarOf seed.1 := by
  intro C ops
  obtain ⟨sig, h1, -⟩ := (C58_split (ε := CryptoError) ops ⟨Bytes.append32 seed (C.compress 8)⟩ d).1 rfl
  obtain ⟨sig', h2, -⟩ := (C58_split (ε := CryptoError) ops ⟨Bytes.append32 seed (C.compress 16)⟩ d).1 rfl
  refine ⟨sig, sig', h1, h2, ((C99 _ (Toy.edCurve_laws _) d seed _ _ sig sig' h1 h2).2 ?_).1⟩
  rw [(new_ok _ h1).1, (new_ok _ h2).1]
  subst hd hseed
  simp only [C]
  decide +kernel

end Verif
