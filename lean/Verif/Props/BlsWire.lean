import Verif.Props.Bls
import Verif.Props.Malformed

/-!
# The wire format at BLS12-381 (C55, C82)

C55 and C82 are stated for any suite; here they are instantiated at the curve the crate is written for.  Infinity has many
encodings there, so C55 fails already for shares, and holds for values without infinity.
-/

namespace Verif

open WeierstrassCurve Codec

/-! ### C82 -/

/-- A field decoder that reports errors and reads from the front only. -/
structure FieldWire.Tame {F : Type} (w : FieldWire F) : Prop where
  safe : ∀ l, (∃ x, w.dec l = .ok x) ∨ ∃ e, w.dec l = .err e
  stable : ∀ l x fl rest more, w.dec l = .ok (x, fl, rest) → w.dec (l ++ more) = .ok (x, fl, rest ++ more)

theorem wireFq_tame : wireFq.Tame where
  safe l := by
    simp only [wireFq]
    split
    · exact .inr ⟨_, rfl⟩
    · split
      · exact .inr ⟨_, rfl⟩
      · split
        · exact .inl ⟨_, rfl⟩
        · exact .inr ⟨_, rfl⟩
  stable l x fl rest more h := by
    simp only [wireFq] at h ⊢
    by_cases hl : l.length < 48
    · rw [if_pos hl] at h; cases h
    · rw [if_neg hl] at h
      rw [if_neg (by simp; omega), List.take_append_of_le_length (by omega), List.drop_append_of_le_length (by omega)]
      split at h
      · cases h
      · split at h
        · rename_i h1 h2
          rw [if_neg h1, if_pos h2]
          injection h with h
          simp only [Prod.mk.injEq] at h
          obtain ⟨rfl, rfl, rfl⟩ := h
          rfl
        · cases h

theorem wireFq2_tame : wireFq2.Tame where
  safe l := by
    simp only [wireFq2]
    split
    · exact .inr ⟨_, rfl⟩
    · split
      · exact safe_bind (wireFq_tame.safe _) fun a => .inl ⟨_, rfl⟩
      · exact .inr ⟨_, rfl⟩
  stable l x fl rest more h := by
    simp only [wireFq2] at h ⊢
    by_cases hl : l.length < 48
    · rw [if_pos hl] at h; cases h
    · rw [if_neg hl] at h
      rw [if_neg (by simp; omega), List.take_append_of_le_length (by omega), List.drop_append_of_le_length (by omega)]
      split at h
      · rename_i h2
        rw [if_pos h2]
        rw [Res.bind_eq_ok] at h
        obtain ⟨⟨y, fl', rest'⟩, h3, h4⟩ := h
        injection h4 with h4
        simp only [Prod.mk.injEq] at h4
        obtain ⟨rfl, rfl, rfl⟩ := h4
        rw [wireFq_tame.stable _ _ _ _ more h3]
        rfl
      · cases h

theorem dite_safe {α : Type} {p : Prop} {_ : Decidable p} {f : p → α} {e : SerError} :
    (∃ x, (if h : p then .ok (f h) else .err e : Res SerError α) = .ok x) ∨
      ∃ e', (if h : p then .ok (f h) else .err e : Res SerError α) = .err e' := by
  by_cases hp : p
  · exact .inl ⟨f hp, by simp only [hp, dite_true]⟩
  · exact .inr ⟨e, by simp only [hp, dite_false]⟩

theorem pointCodec_safe {F : Type} [Field F] [DecidableEq F] {w : FieldWire F} (hw : w.Tame) (r : ℕ) (a b : F) :
    Spec.Safe (pointCodec w r a b) := by
  intro l
  refine safe_bind (hw.safe l) ?_
  rintro ⟨x, fl, rest⟩
  simp only
  split
  · exact .inl ⟨_, rfl⟩
  · split
    · exact dite_safe
    · exact .inr ⟨_, rfl⟩

theorem dite_more {α : Type} {p : Prop} {_ : Decidable p} {f : p → α} {e : SerError} {P : α} {rest' rest : List UInt8}
    (more : List UInt8) (h : (if h : p then .ok (f h, rest') else .err e : Res SerError (α × List UInt8)) = .ok (P, rest)) :
    (if h : p then .ok (f h, rest' ++ more) else .err e : Res SerError (α × List UInt8)) = .ok (P, rest ++ more) := by
  by_cases hp : p
  · simp only [hp, dite_true] at h ⊢
    injection h with h
    obtain ⟨rfl, rfl⟩ := Prod.mk.inj h
    rfl
  · simp only [hp, dite_false] at h
    cases h

theorem pointCodec_stable {F : Type} [Field F] [DecidableEq F] {w : FieldWire F} (hw : w.Tame) (r : ℕ) (a b : F) :
    Spec.Stable (pointCodec w r a b) := by
  intro l P rest more h
  simp only [pointCodec] at h ⊢
  rw [Res.bind_eq_ok] at h
  obtain ⟨⟨x, fl, rest'⟩, h1, h2⟩ := h
  rw [hw.stable _ _ _ _ more h1, Res.bind_ok']
  simp only at h2 ⊢
  split at h2
  · rename_i hfl
    rw [if_pos hfl]
    injection h2 with h2
    obtain ⟨rfl, rfl⟩ := Prod.mk.inj h2
    rfl
  · rename_i hfl
    rw [if_neg hfl]
    split at h2
    · rename_i hs
      rw [dif_pos hs]
      exact dite_more more h2
    · cases h2

variable {K : Type} (pair : BlsG1 → BlsG2 → K)
  (stream : List UInt8 → List UInt8 → ℕ → UInt8) (shake : List UInt8 → Bytes 32) (ed : EdOps)

/-- **C82** (BLS12-381). The decoders of points and scalars of `ark-bls12-381` report every malformed input as an error and read
from the front only, so all of C82 holds for them. -/
theorem C82_bls : Spec.PointDecoders (arkSuite pair stream shake ed) where
  safe1 := pointCodec_safe wireFq_tame _ _ _
  safe2 := pointCodec_safe wireFq2_tame _ _ _
  safeF := (Toy.pointDecoders blsR).safeF
  stable1 := pointCodec_stable wireFq_tame _ _ _
  stable2 := pointCodec_stable wireFq2_tame _ _ _
  stableF := (Toy.pointDecoders blsR).stableF

/-- Non-vacuity: the negation of C82 at BLS12-381. -/
example : ¬ C82_claim (arkSuite pair stream shake ed) :=
  C82_false _ 48 96 32 (C82_bls pair stream shake ed) (C96_codec stream shake ed pair)

/-! ### C55 -/

/-- **C55** (BLS12-381), the part that holds: what decodes to a value without the point at infinity is the encoding of that
value, up to the entries listed for the map of an aggregated share. -/
theorem C55_bls_partial :
    let S := arkSuite pair stream shake ed
    (∀ l x rest, (PVSSShare.codec S).dec l = .ok (x, rest) → Spec.corePoints (· ≠ 0) (· ≠ 0) x.core →
      Spec.proofPoints (· ≠ 0) x.signedProof → l = (PVSSShare.codec S).enc x ++ rest) ∧
    (∀ l x rest, (PVSSCore.codec S).dec l = .ok (x, rest) → Spec.corePoints (· ≠ 0) (· ≠ 0) x →
      l = (PVSSCore.codec S).enc x ++ rest) ∧
    (∀ l x rest, (SignedProof.codec S).dec l = .ok (x, rest) → Spec.proofPoints (· ≠ 0) x →
      l = (SignedProof.codec S).enc x ++ rest) ∧
    (∀ l x rest, (Config.codec S).dec l = .ok (x, rest) → x.srs.g1 ≠ 0 → x.srs.g2 ≠ 0 → x.srs.g2Prime ≠ 0 →
      l = (Config.codec S).enc x ++ rest) ∧
    (∀ l x rest, (Participant.codec S).dec l = .ok (x, rest) → x.pkSig ≠ 0 → l = (Participant.codec S).enc x ++ rest) ∧
    (∀ l x rest, (AggShare.codec S).dec l = .ok (x, rest) → ∃ kvs : List (ℕ × (SignedProof blsR BlsG2 × UInt64)),
      x.contributions = BMap.ofList kvs ∧
      (Spec.corePoints (· ≠ 0) (· ≠ 0) x.core → (∀ kv ∈ kvs, Spec.proofPoints (· ≠ 0) kv.2.1) →
        l = u64.enc x.numParticipants ++ (u64.enc x.degree ++ ((PVSSCore.codec S).enc x.core ++ (u64.enc kvs.length ++
          ((kvs.map (prod u64 (prod (SignedProof.codec S) weight)).enc).flatten ++ rest)))) ∧
        (kvs.Pairwise (fun a b => a.1 < b.1) → l = (AggShare.codec S).enc x ++ rest))) :=
  C55_points_partial (arkSuite pair stream shake ed) (· ≠ 0) (· ≠ 0) C96_canonical.1 C96_canonical.2.1 C96_canonical.2.2

/-- Reading the proof of a share whose commitment to the nonce is infinity, written with any `x`. -/
def infBytes (S : Suite blsR BlsG1 BlsG2 K) (s : PVSSShare blsR BlsG1 BlsG2) (x : BlsFq2) : List UInt8 :=
  u64.enc s.participantId ++ ((PVSSCore.codec S).enc s.core ++ (wireFq2.enc x 1 ++
    (S.frC.enc s.signedProof.decompProof.proof.2.1 ++ (S.frC.enc s.signedProof.decompProof.proof.2.2 ++
      (S.c2.codec.enc s.signedProof.decompProof.gs ++ Signature.codec.enc s.signedProof.signature)))))

/-- **C55** (BLS12-381, shares are malleable). A share whose proof has infinity as commitment to the nonce has as many encodings
as the base field of the second group has elements; they all decode to that share. -/
theorem C55_infinity (s : PVSSShare blsR BlsG1 BlsG2) (h0 : s.signedProof.decompProof.proof.1 = 0)
    (hid : s.participantId < 2 ^ 64) (he : s.core.encs.length < 2 ^ 64) (hc : s.core.comms.length < 2 ^ 64) :
    let S := arkSuite pair stream shake ed
    (∀ x, (PVSSShare.codec S).dec (infBytes S s x) = .ok (s, [])) ∧ Function.Injective (infBytes S s) ∧
      infBytes S s 0 = (PVSSShare.codec S).enc s := by
  intro S
  have h : CodecLaws S 48 96 32 := C96_codec stream shake ed pair
  have h00 : infBytes S s 0 = (PVSSShare.codec S).enc s := by
    simp only [infBytes, PVSSShare.codec, SignedProof.codec, DecompProof.codec, proofCodec, iso, prod, h0]
    simp only [List.append_assoc]
    rfl
  refine ⟨fun x => ?_, fun x y hxy => ?_, h00⟩
  · have hl := pvssShare_lawful h s ⟨hid, he, hc⟩ []
    rw [List.append_nil, ← h00] at hl
    rw [← hl]
    have hx := fun rest => (C96_infinity 0 x rest).2
    have hz := fun rest => (C96_infinity 0 0 rest).2
    have hu := u64_lawful s.participantId hid
    have hcore := core_lawful h s.core ⟨he, hc⟩
    simp only [infBytes, PVSSShare.codec, SignedProof.codec, DecompProof.codec, proofCodec, iso, prod, hu, Res.bind_ok'] at hcore ⊢
    rw [hcore, hcore]
    simp only [Res.bind_ok']
    have hx' : ∀ rest, S.c2.codec.dec (wireFq2.enc x 1 ++ rest) = .ok (0, rest) := hx
    have hz' : ∀ rest, S.c2.codec.dec (wireFq2.enc 0 1 ++ rest) = .ok (0, rest) := hz
    rw [hx', hz']
  · unfold infBytes at hxy
    have e1 := List.append_cancel_left (List.append_cancel_left hxy)
    have e2 := List.append_cancel_right e1
    have h1 := wireFq2_good.dec_enc x 1 [] (by norm_num)
    rw [e2, wireFq2_good.dec_enc y 1 [] (by norm_num)] at h1
    exact (congrArg Prod.fst (Res.ok.inj h1)).symm

/-- **C55 negated** for shares at BLS12-381. -/
theorem C55_bls_false : ¬ ∀ l s, (PVSSShare.codec (arkSuite pair stream shake ed)).dec l = .ok (s, []) →
    l = (PVSSShare.codec (arkSuite pair stream shake ed)).enc s := by
  intro hc
  obtain ⟨h1, h2, h3⟩ := C55_infinity pair stream shake ed ⟨0, ⟨[], []⟩, ⟨⟨(0, 0, 0), 0⟩, Toy.zeroSig⟩⟩ rfl (by norm_num)
    (by simp) (by simp)
  exact absurd (h2 ((hc _ _ (h1 1)).trans h3.symm)) one_ne_zero

/-- Non-vacuity of C55 at BLS12-381: a share without infinity is written and read back, and its bytes are its only encoding. -/
example (stream : List UInt8 → List UInt8 → ℕ → UInt8) (shake : List UInt8 → Bytes 32) (ed : EdOps) :
    let S := arkSuite (fun _ _ => ()) stream shake ed
    let s : PVSSShare blsR BlsG1 BlsG2 := ⟨3, ⟨[blsG1, 2 • blsG1], [blsG2, -blsG2]⟩, ⟨⟨(blsG2, 5, 7), blsG2⟩, Toy.zeroSig⟩⟩
    (PVSSShare.codec S).dec ((PVSSShare.codec S).enc s) = .ok (s, []) ∧
    ∀ l, (PVSSShare.codec S).dec l = .ok (s, []) → l = (PVSSShare.codec S).enc s := by
  intro S s
  have h : CodecLaws S 48 96 32 := C96_codec stream shake ed _
  have hl := pvssShare_lawful h s ⟨by show 3 < _; norm_num, by show 2 < _; norm_num, by show 2 < _; norm_num⟩ []
  rw [List.append_nil] at hl
  refine ⟨hl, fun l hd => ?_⟩
  have g1 : blsG1 ≠ 0 := blsG1_ne_zero
  have g2 : blsG2 ≠ 0 := blsG2_ne_zero
  have d1 : (2 : ℕ) • blsG1 ≠ 0 := by
    rw [← Nat.cast_smul_eq_nsmul (ZMod blsR)]
    exact smul_ne_zero (by
      rw [Ne, ZMod.natCast_eq_zero_iff]
      exact fun hd => absurd (Nat.le_of_dvd (by norm_num) hd) (by decide +kernel)) g1
  have := (C55_bls_partial (fun _ _ => ()) stream shake ed).1 l s [] hd
    ⟨by rintro P hP; rcases List.mem_cons.1 hP with rfl | hP; exacts [g1, (List.mem_singleton.1 hP) ▸ d1],
     by rintro P hP; rcases List.mem_cons.1 hP with rfl | hP; exacts [g2, (List.mem_singleton.1 hP) ▸ neg_ne_zero.2 g2]⟩
    ⟨g2, g2⟩
  rwa [List.append_nil] at this

end Verif
