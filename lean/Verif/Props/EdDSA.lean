import Verif.Props.Text
import Verif.Model.Laws
import Verif.Toy

/-!
# EdDSA wrapper types: C56 – C58
-/

namespace Verif

set_option linter.unusedSectionVars false

/-! ### C56 -/

/-- `s` is the base64 text (RFC 4648) of `b`, possibly with `=` symbols missing at the end. -/
def Spec.Base64Text (s b : List UInt8) : Prop := ∃ j, s ++ List.replicate j 61 = Spec.base64 b

/-- RFC 4648 test vectors for `encode`: `""`, `f`, `fo`, `foo`, `foob`, `fooba`, `foobar`. -/
example : Base64.encode [] = [] ∧ Base64.encode [102] = ascii "Zg==" ∧
    Base64.encode [102, 111] = ascii "Zm8=" ∧ Base64.encode [102, 111, 111] = ascii "Zm9v" ∧
    Base64.encode [102, 111, 111, 98] = ascii "Zm9vYg==" ∧
    Base64.encode [102, 111, 111, 98, 97] = ascii "Zm9vYmE=" ∧
    Base64.encode [102, 111, 111, 98, 97, 114] = ascii "Zm9vYmFy" := by decide

/-- **C56** (round trip). -/
theorem C56_roundtrip :
    (∀ k : PublicKey, PublicKey.fromBase64 k.toBase64 = .ok k) ∧ (∀ k : SecretKey, SecretKey.fromBase64 k.toBase64 = .ok k) := by
  constructor
  · rintro ⟨b, hb⟩
    simp only [PublicKey.fromBase64, PublicKey.toBase64, Base64.decode_encode, Res.ofOption_some, Res.bind_ok', takeArray]
    rw [dif_pos (by omega)]
    simp only [Res.bind_ok', List.take_of_length_le (Nat.le_of_eq hb)]
  · rintro ⟨b, hb⟩
    simp only [SecretKey.fromBase64, SecretKey.toBase64, Base64.decode_encode, Res.ofOption_some, Res.bind_ok', takeArray]
    rw [dif_pos (by omega)]
    simp only [Res.bind_ok', List.take_of_length_le (Nat.le_of_eq hb)]

theorem base64Text_unique {s b b' : List UInt8} (h : Spec.Base64Text s b) (h' : Spec.Base64Text s b') : b = b' := by
  have h1 := (C77_decode s b).2 h
  have h2 := (C77_decode s b').2 h'
  rw [h1] at h2
  exact Option.some.inj h2

/-- **C56** (`PublicKey::from_base64`, all strings). -/
theorem C56_public (s : List UInt8) :
    (PublicKey.fromBase64 s = .panic ↔ ∃ b, Spec.Base64Text s b ∧ b.length < 32) ∧
    (PublicKey.fromBase64 s = .err .decodeError ↔ ∀ b, ¬ Spec.Base64Text s b) ∧
    (∀ k, PublicKey.fromBase64 s = .ok k ↔ ∃ b, Spec.Base64Text s b ∧ 32 ≤ b.length ∧ k.bytes.1 = b.take 32) ∧
    PublicKey.fromBase64 s ≠ .diverge := by
  unfold PublicKey.fromBase64
  cases hd : Base64.decode s with
  | none =>
    have hn : ∀ b, ¬ Spec.Base64Text s b := fun b hb => by
      have := (C77_decode s b).2 hb
      rw [hd] at this; cases this
    simp only [Res.ofOption_none, Res.bind_err']
    refine ⟨⟨fun h => (by cases h), fun ⟨b, hb, _⟩ => absurd hb (hn b)⟩, ⟨fun _ => hn, fun _ => trivial⟩,
      fun k => ⟨fun h => (by cases h), fun ⟨b, hb, _⟩ => absurd hb (hn b)⟩, by simp⟩
  | some b =>
    have hb : Spec.Base64Text s b := (C77_decode s b).1 hd
    simp only [Res.ofOption_some, Res.bind_ok', takeArray]
    split
    · rename_i hl
      simp only [Res.bind_ok']
      refine ⟨⟨fun h => (by cases h), fun ⟨b', hb', h⟩ => ?_⟩, ⟨fun h => (by cases h), fun h => absurd hb (h b)⟩, fun k => ?_, by simp⟩
      · rw [base64Text_unique hb' hb] at h; omega
      · constructor
        · intro h; cases h; exact ⟨b, hb, hl, rfl⟩
        · rintro ⟨b', hb', _, h⟩
          rw [base64Text_unique hb' hb] at h
          obtain ⟨⟨kb, hk⟩⟩ := k
          simp only at h
          subst h; rfl
    · rename_i hl
      simp only [Res.bind_panic']
      refine ⟨⟨fun _ => ⟨b, hb, by omega⟩, fun _ => trivial⟩, ⟨fun h => (by cases h), fun h => absurd hb (h b)⟩, fun k => ?_, by simp⟩
      constructor
      · intro h; cases h
      · rintro ⟨b', hb', h, _⟩
        rw [base64Text_unique hb' hb] at h; omega

/-- **C56** (`SecretKey::from_base64`, all strings). -/
theorem C56_secret (s : List UInt8) :
    (SecretKey.fromBase64 s = .panic ↔ ∃ b, Spec.Base64Text s b ∧ b.length < 64) ∧
    (SecretKey.fromBase64 s = .err .decodeError ↔ ∀ b, ¬ Spec.Base64Text s b) ∧
    (∀ k, SecretKey.fromBase64 s = .ok k ↔ ∃ b, Spec.Base64Text s b ∧ 64 ≤ b.length ∧ k.bytes.1 = b.take 64) ∧
    SecretKey.fromBase64 s ≠ .diverge := by
  unfold SecretKey.fromBase64
  cases hd : Base64.decode s with
  | none =>
    have hn : ∀ b, ¬ Spec.Base64Text s b := fun b hb => by
      have := (C77_decode s b).2 hb
      rw [hd] at this; cases this
    simp only [Res.ofOption_none, Res.bind_err']
    refine ⟨⟨fun h => (by cases h), fun ⟨b, hb, _⟩ => absurd hb (hn b)⟩, ⟨fun _ => hn, fun _ => trivial⟩,
      fun k => ⟨fun h => (by cases h), fun ⟨b, hb, _⟩ => absurd hb (hn b)⟩, by simp⟩
  | some b =>
    have hb : Spec.Base64Text s b := (C77_decode s b).1 hd
    simp only [Res.ofOption_some, Res.bind_ok', takeArray]
    split
    · rename_i hl
      simp only [Res.bind_ok']
      refine ⟨⟨fun h => (by cases h), fun ⟨b', hb', h⟩ => ?_⟩, ⟨fun h => (by cases h), fun h => absurd hb (h b)⟩, fun k => ?_, by simp⟩
      · rw [base64Text_unique hb' hb] at h; omega
      · constructor
        · intro h; cases h; exact ⟨b, hb, hl, rfl⟩
        · rintro ⟨b', hb', _, h⟩
          rw [base64Text_unique hb' hb] at h
          obtain ⟨⟨kb, hk⟩⟩ := k
          simp only at h
          subst h; rfl
    · rename_i hl
      simp only [Res.bind_panic']
      refine ⟨⟨fun _ => ⟨b, hb, by omega⟩, fun _ => trivial⟩, ⟨fun h => (by cases h), fun h => absurd hb (h b)⟩, fun k => ?_, by simp⟩
      constructor
      · intro h; cases h
      · rintro ⟨b', hb', h, _⟩
        rw [base64Text_unique hb' hb] at h; omega

/-- Non-vacuity of C56: `"Zg"` (missing padding) decodes to one byte, so the call panics; `"Z"` is not base64; the text of a
64-byte string is accepted as a public key, silently dropping half of it. -/
example : PublicKey.fromBase64 (ascii "Zg") = .panic ∧ PublicKey.fromBase64 (ascii "Z") = .err .decodeError ∧
    ∃ k, PublicKey.fromBase64 (Base64.encode (List.replicate 64 7)) = .ok k ∧ k.bytes.1 = List.replicate 32 7 := by
  refine ⟨(C56_public _).1.2 ⟨[102], ⟨2, by decide⟩, by decide⟩, ?_, ⟨⟨List.replicate 32 7, by simp⟩⟩,
    ((C56_public _).2.2.1 _).2 ⟨List.replicate 64 7, ⟨0, by rw [C77_encode, List.replicate_zero, List.append_nil]⟩, by simp, by simp⟩, rfl⟩
  have : Base64.decode (ascii "Z") = none := by decide
  simp only [PublicKey.fromBase64, this, Res.ofOption_none, Res.bind_err']

/-! ### C57 -/

theorem first16_encode {ε : Type} (b : Bytes 32) :
    (first16 (Base64.encode b.1) : Res ε _) = .ok (Base64.encode (b.1.take 12)) := by
  unfold first16
  rw [if_pos (by rw [Base64.length_encode, b.2]; decide)]
  have := Base64.take_encode 4 b.1 (by rw [b.2]; decide)
  exact congrArg _ this

/-- **C57** (`Display` never panics and prints 16 characters). -/
theorem C57_display {ε : Type} :
    (∀ d : Digest, ∃ s, (d.display : Res ε _) = .ok s ∧ s.length = 16) ∧
    (∀ k : PublicKey, ∃ s, (k.display : Res ε _) = .ok s ∧ s.length = 16) := by
  have : ∀ b : Bytes 32, (Base64.encode (b.1.take 12)).length = 16 := fun b => by
    rw [Base64.length_encode, List.length_take, b.2]; decide
  exact ⟨fun d => ⟨_, first16_encode d.bytes, this _⟩, fun k => ⟨_, first16_encode k.bytes, this _⟩⟩

/-- **C57** (`Display` collisions). -/
theorem C57_collision {ε : Type} :
    (∀ d d' : Digest, (d.display : Res ε _) = d'.display ↔ d.bytes.1.take 12 = d'.bytes.1.take 12) ∧
    (∀ k k' : PublicKey, (k.display : Res ε _) = k'.display ↔ k.bytes.1.take 12 = k'.bytes.1.take 12) := by
  have : ∀ b b' : Bytes 32, (first16 (Base64.encode b.1) : Res ε _) = first16 (Base64.encode b'.1) ↔
      b.1.take 12 = b'.1.take 12 := fun b b' => by
    rw [first16_encode, first16_encode]
    exact ⟨fun h => Base64.encode_inj (Res.ok.inj h), fun h => by rw [h]⟩
  exact ⟨fun d d' => this _ _, fun k k' => this _ _⟩

/-- **C57** (`Debug` is injective). -/
theorem C57_debug :
    (∀ d d' : Digest, d.debug = d'.debug → d = d') ∧ (∀ k k' : PublicKey, k.debug = k'.debug → k = k') ∧
    (∀ k k' : SecretKey, k.debug = k'.debug → k = k') := by
  refine ⟨?_, ?_, ?_⟩
  · rintro ⟨b⟩ ⟨b'⟩ h
    exact congrArg _ (Subtype.ext (Base64.encode_inj h))
  · rintro ⟨b⟩ ⟨b'⟩ h
    exact congrArg _ (Subtype.ext (Base64.encode_inj h))
  · rintro ⟨b⟩ ⟨b'⟩ h
    exact congrArg _ (Subtype.ext (Base64.encode_inj h))

/-- Non-vacuity of C57: two different digests with the same `Display` text. -/
example : ∃ d d' : Digest, d ≠ d' ∧ (d.display : Res PVSSError _) = d'.display :=
  ⟨⟨⟨List.replicate 32 0, by simp⟩⟩, ⟨⟨List.replicate 31 0 ++ [1], by simp⟩⟩, by decide, (C57_collision.1 _ _).2 (by decide)⟩

/-! ### C58 -/

/-- **C58** (signing with a generated key). -/
theorem C58_sign {ε : Type} (ed : EdOps) (h : EdLaws ed) (seed : Bytes 32) (d : Digest) :
    ∃ sig, (Signature.new ed d (generateKeypair ed seed).2 : Res ε _) = .ok sig ∧
      sig.verify ed d (generateKeypair ed seed).1 = .ok () ∧
      sig.flatten = ed.sign (generateKeypair ed seed).2.bytes d.bytes.1 := by
  have hf : ∀ s : Bytes 64, (Signature.flatten ⟨⟨s.1.take 32, by simp [s.2]⟩, ⟨(s.1.take 64).drop 32, by simp [s.2]⟩⟩) = s := by
    intro s
    apply Subtype.ext
    simp only [Signature.flatten, Bytes.append32]
    rw [List.take_of_length_le (l := s.1) (i := 64) (by rw [s.2]), List.take_append_drop]
  have hk : (Signature.new ed d (generateKeypair ed seed).2 : Res ε _) = .ok
      ⟨⟨(ed.sign (generateKeypair ed seed).2.bytes d.bytes.1).1.take 32, by
          simp [(ed.sign (generateKeypair ed seed).2.bytes d.bytes.1).2]⟩,
        ⟨((ed.sign (generateKeypair ed seed).2.bytes d.bytes.1).1.take 64).drop 32, by
          simp [(ed.sign (generateKeypair ed seed).2.bytes d.bytes.1).2]⟩⟩ := by
    unfold Signature.new
    rw [if_pos (by exact h.keypair_ok seed)]
  refine ⟨_, hk, ?_, hf _⟩
  unfold Signature.verify
  rw [hf, if_pos (by exact h.sig_ok seed _), if_pos (by exact h.pk_ok seed), if_pos (by exact h.verifies seed _)]

/-- **C58** (splitting): `Signature::new` loses nothing, for any key that parses; it panics for the others. -/
theorem C58_split {ε : Type} (ed : EdOps) (sk : SecretKey) (d : Digest) :
    (ed.keypairOk sk.bytes = true → ∃ sig, (Signature.new ed d sk : Res ε _) = .ok sig ∧
      sig.flatten = ed.sign sk.bytes d.bytes.1) ∧
    (ed.keypairOk sk.bytes = false → (Signature.new ed d sk : Res ε _) = .panic) := by
  constructor
  · intro h
    unfold Signature.new
    rw [if_pos h]
    refine ⟨_, rfl, ?_⟩
    apply Subtype.ext
    simp only [Signature.flatten, Bytes.append32]
    rw [List.take_of_length_le (i := 64) (by rw [(ed.sign sk.bytes d.bytes.1).2]), List.take_append_drop]
  · intro h
    unfold Signature.new
    rw [if_neg (by simp [h])]

/-- **C58** (`verify`): `Ok` iff both parse and dalek accepts, `Err` otherwise (never a panic). -/
theorem C58_verify (ed : EdOps) (s : Signature) (d : Digest) (pk : PublicKey) :
    (s.verify ed d pk = .ok () ↔ ed.sigOk s.flatten = true ∧ ed.pkOk pk.bytes = true ∧
      ed.verifyStrict pk.bytes d.bytes.1 s.flatten = true) ∧
    (s.verify ed d pk = .ok () ∨ s.verify ed d pk = .err .signatureError) := by
  unfold Signature.verify
  split
  · split
    · split
      · simp_all
      · simp_all
    · simp_all
  · simp_all

theorem batchStep_loop (ed : EdOps) (d : Digest) (votes : List (PublicKey × Signature))
    (h : ∀ v ∈ votes, ed.sigOk v.2.flatten = true ∧ ed.pkOk v.1.bytes = true)
    (acc : List (List UInt8) × List (Bytes 64) × List (Bytes 32)) :
    loop (Signature.batchStep ed d) acc votes = .ok (acc.1 ++ votes.map (fun _ => d.bytes.1),
      acc.2.1 ++ votes.map (fun v => v.2.flatten), acc.2.2 ++ votes.map (fun v => v.1.bytes)) := by
  induction votes generalizing acc with
  | nil => simp [loop]
  | cons v votes ih =>
    rw [loop_cons]
    have hv := h v (by simp)
    unfold Signature.batchStep
    rw [if_pos hv.1, if_pos hv.2, Res.bind_ok']
    have := ih (fun v hv => h v (by simp [hv])) (acc.1 ++ [d.bytes.1], acc.2.1 ++ [v.2.flatten], acc.2.2 ++ [v.1.bytes])
    unfold Signature.batchStep at this
    rw [this]
    simp

theorem batchStep_loop_err (ed : EdOps) (d : Digest) (votes : List (PublicKey × Signature))
    (h : ∃ v ∈ votes, ed.sigOk v.2.flatten = false ∨ ed.pkOk v.1.bytes = false)
    (acc : List (List UInt8) × List (Bytes 64) × List (Bytes 32)) :
    loop (Signature.batchStep ed d) acc votes = .err .signatureError := by
  induction votes generalizing acc with
  | nil => simp at h
  | cons v votes ih =>
    rw [loop_cons]
    by_cases hv : ed.sigOk v.2.flatten = true ∧ ed.pkOk v.1.bytes = true
    · have hs : Signature.batchStep ed d acc v
          = .ok (acc.1 ++ [d.bytes.1], acc.2.1 ++ [v.2.flatten], acc.2.2 ++ [v.1.bytes]) := by
        unfold Signature.batchStep
        rw [if_pos hv.1, if_pos hv.2]
      rw [hs, Res.bind_ok']
      refine ih ?_ _
      obtain ⟨w, hw, hb⟩ := h
      rcases List.mem_cons.1 hw with rfl | hw
      · rcases hb with hb | hb <;> simp_all
      · exact ⟨w, hw, hb⟩
    · have hs : Signature.batchStep ed d acc v = .err .signatureError := by
        unfold Signature.batchStep
        split
        · rename_i h1
          rw [if_neg fun h2 => hv ⟨h1, h2⟩]
        · rfl
      rw [hs, Res.bind_err']

/-- **C58** (`verify_batch`): an unparsable key or signature gives `Err`; otherwise the outcome is dalek's batch verdict on
every vote's key and signature, each paired with the one digest. -/
theorem C58_batch (ed : EdOps) (d : Digest) (votes : List (PublicKey × Signature)) :
    ((∃ v ∈ votes, ed.sigOk v.2.flatten = false ∨ ed.pkOk v.1.bytes = false) →
      Signature.verifyBatch ed d votes = .err .signatureError) ∧
    ((∀ v ∈ votes, ed.sigOk v.2.flatten = true ∧ ed.pkOk v.1.bytes = true) →
      (Signature.verifyBatch ed d votes = .ok () ↔
        ed.verifyBatch (List.replicate votes.length d.bytes.1) (votes.map fun v => v.2.flatten)
          (votes.map fun v => v.1.bytes) = true)) ∧
    (Signature.verifyBatch ed d votes = .ok () ∨ Signature.verifyBatch ed d votes = .err .signatureError) := by
  have hpart : ((∃ v ∈ votes, ed.sigOk v.2.flatten = false ∨ ed.pkOk v.1.bytes = false) →
      Signature.verifyBatch ed d votes = .err .signatureError) := by
    intro h
    unfold Signature.verifyBatch
    rw [batchStep_loop_err ed d votes h, Res.bind_err']
  have hall : (∀ v ∈ votes, ed.sigOk v.2.flatten = true ∧ ed.pkOk v.1.bytes = true) →
      Signature.verifyBatch ed d votes = if ed.verifyBatch (List.replicate votes.length d.bytes.1)
        (votes.map fun v => v.2.flatten) (votes.map fun v => v.1.bytes) then .ok () else .err .signatureError := by
    intro h
    unfold Signature.verifyBatch
    rw [batchStep_loop ed d votes h, Res.bind_ok']
    simp only [List.nil_append, List.map_const']
  refine ⟨hpart, fun h => ?_, ?_⟩
  · rw [hall h]
    split <;> simp_all
  · by_cases h : ∀ v ∈ votes, ed.sigOk v.2.flatten = true ∧ ed.pkOk v.1.bytes = true
    · rw [hall h]; split <;> simp
    · refine Or.inr (hpart ?_)
      push Not at h
      obtain ⟨v, hv, h⟩ := h
      refine ⟨v, hv, ?_⟩
      by_cases h1 : ed.sigOk v.2.flatten = true
      · exact Or.inr (by simpa using h h1)
      · exact Or.inl (by simpa using h1)

/-- Non-vacuity of C58: the toy scheme satisfies the laws; a batch of two votes is accepted. -/
example (seed : Bytes 32) (d : Digest) : ∃ sig, (Signature.new Toy.ed d (generateKeypair Toy.ed seed).2 : Res PVSSError _) = .ok sig ∧
    Signature.verifyBatch Toy.ed d [((generateKeypair Toy.ed seed).1, sig), ((generateKeypair Toy.ed seed).1, sig)] = .ok () := by
  obtain ⟨sig, h1, h2, h3⟩ := C58_sign (ε := PVSSError) Toy.ed Toy.edLaws seed d
  refine ⟨sig, h1, ((C58_batch Toy.ed d _).2.1 fun v _ => ⟨rfl, rfl⟩).2 ?_⟩
  have h4 := ((C58_verify _ _ _ _).1.1 h2).2.2
  simp only [Toy.ed, decide_eq_true_eq] at h4 ⊢
  simp [h4, List.replicate]

end Verif
