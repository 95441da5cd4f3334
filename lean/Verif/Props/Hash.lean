import Verif.Props.Nizk
import Verif.Props.Schnorr

/-!
# Hashing: C50, C51
-/

namespace Verif

set_option linter.unusedSectionVars false

variable {r : ℕ} [Fact r.Prime] {G G' : Type} [AddCommGroup G] [AddCommGroup G'] [DecidableEq G] [DecidableEq G']

/-! ### C50 -/

/-- **C50** (Schnorr). The message comes first and has any length; the two points after it have a fixed size. -/
theorem C50_schnorr (C : Curve G) (hl : C.codec.Lawful) (n : ℕ) (hf : C.codec.Fixed n) (g g' v v' : G)
    (m m' : List UInt8) (h : Schnorr.hashInput C g m v = Schnorr.hashInput C g' m' v') : m = m' ∧ g = g' ∧ v = v' := by
  unfold Schnorr.hashInput at h
  have h2 : (C.codec.enc g ++ C.codec.enc v).length = (C.codec.enc g' ++ C.codec.enc v').length := by
    simp [hf g, hf g', hf v, hf v']
  obtain ⟨e1, h⟩ := List.append_inj' h h2
  obtain ⟨e2, h⟩ := hl.append_inj h
  exact ⟨e1, e2, hl.inj h⟩

/-- **C50** (DLEQ). -/
theorem C50_dleq (C1 : Curve G) (C2 : Curve G') (h1 : C1.codec.Lawful) (h2 : C2.codec.Lawful)
    (srs stmnt comm srs' stmnt' comm' : G × G')
    (h : DLEQ.hashInput C1 C2 srs stmnt comm = DLEQ.hashInput C1 C2 srs' stmnt' comm') :
    srs = srs' ∧ stmnt = stmnt' ∧ comm = comm' := by
  unfold DLEQ.hashInput at h
  obtain ⟨e1, h⟩ := h1.append_inj h
  obtain ⟨e2, h⟩ := h1.append_inj h
  obtain ⟨e3, h⟩ := h2.append_inj h
  obtain ⟨e4, h⟩ := h2.append_inj h
  obtain ⟨e5, h⟩ := h1.append_inj h
  have e6 := h2.inj h
  exact ⟨Prod.ext e1 e3, Prod.ext e2 e4, Prod.ext e5 e6⟩

/-- **C50** (DLK): the hashed bytes are `g ‖ g_r`, and they determine both points. -/
theorem C50_dlk (C : Curve G) (hl : C.codec.Lawful) (H : HashEnv r) (g gr g' gr' : G) :
    DLK.challenge C H g gr = hashToField H DLK.persona (C.codec.enc g ++ C.codec.enc gr) ∧
    (C.codec.enc g ++ C.codec.enc gr = C.codec.enc g' ++ C.codec.enc gr' → g = g' ∧ gr = gr') := by
  refine ⟨rfl, fun h => ?_⟩
  obtain ⟨e1, h⟩ := hl.append_inj h
  exact ⟨e1, hl.inj h⟩

theorem ite_err_eq_ok {ε : Type} {p : Prop} [Decidable p] {e : ε} :
    ((if p then .err e else .ok ()) : Res ε Unit) = .ok () ↔ ¬ p := by
  by_cases h : p <;> simp [h]

/-- **C50** (what is hashed). Each verifier hashes exactly these bytes under exactly this personalisation, and accepts iff the
verification equation holds with the challenge obtained. -/
theorem C50_verify (C : Curve G) (C' : Curve G') (H : HashEnv r) :
    (∀ (g pk : G) (m : List UInt8) (sig : G × ZMod r), Schnorr.verify C H g pk m sig = .ok () ↔
      ∃ c, (hashToField H (ascii "SCHSIGNA") (m ++ C.codec.enc g ++ C.codec.enc sig.1) : Res SignatureError _) = .ok c ∧
        sig.2.val • g + c.val • pk = sig.1) ∧
    (∀ (g stmnt : G) (proof : G × ZMod r × ZMod r), DLK.verify C H g stmnt proof = .ok () ↔
      ∃ c, (hashToField H (ascii "DLKNIZK") (C.codec.enc g ++ C.codec.enc proof.1) : Res NIZKError _) = .ok c ∧
        proof.2.2.val • g + c.val • stmnt = proof.1 ∧ c = proof.2.1) ∧
    (∀ (srs stmnt : G × G') (proof : (G × G') × ZMod r × ZMod r), DLEQ.verify C C' H srs stmnt proof = .ok () ↔
      ∃ c, (hashToField H (ascii "DLEQNIZK") (C.codec.enc srs.1 ++ C.codec.enc stmnt.1 ++ C'.codec.enc srs.2 ++
          C'.codec.enc stmnt.2 ++ C.codec.enc proof.1.1 ++ C'.codec.enc proof.1.2) : Res NIZKError _) = .ok c ∧
        proof.2.2.val • srs.1 + c.val • stmnt.1 = proof.1.1 ∧ proof.2.2.val • srs.2 + c.val • stmnt.2 = proof.1.2 ∧
        c = proof.2.1) := by
  refine ⟨fun g pk m sig => ?_, fun g stmnt proof => ?_, fun srs stmnt proof => ?_⟩
  · simp only [Schnorr.verify, Schnorr.challenge, Schnorr.hashInput, Schnorr.persona, Res.bind_eq_ok, List.append_assoc]
    refine exists_congr fun c => and_congr_right fun _ => ?_
    rw [ite_err_eq_ok, not_not]
    rfl
  · simp only [DLK.verify, DLK.challenge, DLK.persona, Res.bind_eq_ok]
    refine exists_congr fun c => and_congr_right fun _ => ?_
    rw [ite_err_eq_ok]
    simp only [not_or, not_not, mulRepr]
  · simp only [DLEQ.verify, DLEQ.challenge, DLEQ.hashInput, DLEQ.persona, Res.bind_eq_ok, List.append_assoc]
    refine exists_congr fun c => and_congr_right fun _ => ?_
    rw [ite_err_eq_ok]
    simp only [not_or, not_not, mulRepr]

/-- **C50** (what is hashed, prover side). Each prover hashes the same bytes for the nonce it drew first. -/
theorem C50_prove (C : Curve G) (C' : Curve G') (H : HashEnv r) (rng : Rng r) :
    (∀ (g : G) (sk : ZMod r) (m : List UInt8), Schnorr.sign C H g rng sk m =
      (hashToField H (ascii "SCHSIGNA") (m ++ C.codec.enc g ++ C.codec.enc ((rng 0).val • g)) : Res SignatureError _).bind
        fun c => .ok (((rng 0).val • g, rng 0 - sk * c), rng.drop 1)) ∧
    (∀ (g : G) (w : ZMod r), DLK.prove C H g rng w =
      (hashToField H (ascii "DLKNIZK") (C.codec.enc g ++ C.codec.enc ((rng 0).val • g)) : Res NIZKError _).bind
        fun c => .ok (((rng 0).val • g, c, rng 0 - w * c), rng.drop 1)) ∧
    (∀ (srs : G × G') (w : ZMod r), DLEQ.prove C C' H srs rng w =
      (hashToField H (ascii "DLEQNIZK") (C.codec.enc srs.1 ++ C.codec.enc (w.val • srs.1) ++ C'.codec.enc srs.2 ++
          C'.codec.enc (w.val • srs.2) ++ C.codec.enc ((rng 0).val • srs.1) ++ C'.codec.enc ((rng 0).val • srs.2)) :
          Res NIZKError _).bind
        fun c => .ok ((((rng 0).val • srs.1, (rng 0).val • srs.2), c, rng 0 - w * c), rng.drop 1)) := by
  refine ⟨fun g sk m => ?_, fun g w => ?_, fun srs w => ?_⟩
  · simp only [Schnorr.sign, Schnorr.challenge, Schnorr.hashInput, Schnorr.persona, mulRepr, List.append_assoc]
    rfl
  · simp only [DLK.prove, DLK.challenge, DLK.persona, mulRepr]
    rfl
  · simp only [DLEQ.prove, DLEQ.challenge, DLEQ.hashInput, DLEQ.persona, mulRepr, List.append_assoc]
    rfl

/-- **C50** (domain separation): the three padded personalisations are 8 bytes long and pairwise different. -/
theorem C50_personas :
    (padPersona DLK.persona).length = 8 ∧ (padPersona DLEQ.persona).length = 8 ∧ (padPersona Schnorr.persona).length = 8 ∧
    padPersona DLK.persona ≠ padPersona DLEQ.persona ∧ padPersona DLK.persona ≠ padPersona Schnorr.persona ∧
    padPersona DLEQ.persona ≠ padPersona Schnorr.persona := by decide

/-- Non-vacuity of C50: the codec hypotheses hold for the toy curve. -/
example : (Toy.curve 13).codec.Lawful ∧ (Toy.curve 13).codec.Fixed 32 :=
  ⟨(Toy.codecLaws 13 (by norm_num)).c1, (Toy.codecLaws 13 (by norm_num)).c1size⟩

/-! ### C51 -/

/-- `k` is the first index at which the property holds. -/
def Spec.First (P : ℕ → Prop) (k : ℕ) : Prop := P k ∧ ∀ j < k, ¬ P j

variable {ε : Type}

/-- Bytes `size·k`, …, `size·(k+1) - 1` of a stream. -/
def Spec.window (s : ℕ → UInt8) (size k : ℕ) : List UInt8 := List.ofFn fun j : Fin size => s (size * k + j)

/-- The eight bytes whose `j`-th is that of `p`, or zero when `p` is shorter. -/
def Spec.eightBytes (p : List UInt8) : List UInt8 := List.ofFn fun j : Fin 8 => p.getD j 0

theorem block_eq (s : ℕ → UInt8) (size k : ℕ) : block s size k = Spec.window s size k := by
  unfold block Spec.window
  rw [List.ofFn_eq_map, ← List.map_coe_finRange_eq_range, List.map_map]
  exact List.map_congr_left fun j _ => by simp [Nat.mul_comm]

theorem padPersona_eq {p : List UInt8} (hp : p.length ≤ 8) : padPersona p = Spec.eightBytes p := by
  unfold padPersona Spec.eightBytes
  refine List.ext_getElem (by simp; omega) fun j h1 h2 => ?_
  rw [List.getElem_append, List.getElem_ofFn]
  split
  · rename_i h; rw [List.getD_eq_getElem?_getD, List.getElem?_eq_getElem h, Option.getD_some]
  · rename_i h
    rw [List.getD_eq_getElem?_getD, List.getElem?_eq_none (Nat.le_of_not_lt h), Option.getD_none, List.getElem_replicate]

/-- `hash_to_field` on the model's blocks: panics iff the personalisation is longer than 8 bytes; never returns an error; otherwise
returns `x` iff the first decodable block of the stream of (padded personalisation, message) decodes to `x`, and loops
iff no block decodes. -/
theorem hashToField_blocks (H : HashEnv r) (p m : List UInt8) :
    ((hashToField H p m : Res ε _) = .panic ↔ 8 < p.length) ∧
    (∀ e, (hashToField H p m : Res ε _) ≠ .err e) ∧
    (p.length ≤ 8 → ∀ x, (hashToField H p m : Res ε _) = .ok x ↔
      ∃ k, Spec.First (fun j => H.frFromRandom (block (H.stream (padPersona p) m) H.frSize j) ≠ none) k ∧
        H.frFromRandom (block (H.stream (padPersona p) m) H.frSize k) = some x) ∧
    (p.length ≤ 8 → ((hashToField H p m : Res ε _) = .diverge ↔
      ∀ k, H.frFromRandom (block (H.stream (padPersona p) m) H.frSize k) = none)) := by
  refine ⟨?_, fun e => hashToField_ne_err H p m e, ?_, ?_⟩
  · constructor
    · intro h
      by_contra hp
      exact hashToField_ne_panic H (by omega) m h
    · intro hp; unfold hashToField; rw [if_pos hp]
  · intro hp x
    unfold hashToField
    rw [if_neg (by omega)]
    rcases firstSome_cases (ε := ε) (fun k => H.frFromRandom (block (H.stream (padPersona p) m) H.frSize k))
      with ⟨k, a, h1, h2, h⟩ | ⟨h1, h⟩
    · simp only [h]
      constructor
      · intro hx
        cases hx
        exact ⟨k, ⟨by simp [h1], fun j hj => by simp [h2 j hj]⟩, h1⟩
      · rintro ⟨k', ⟨h3, h4⟩, h5⟩
        have : k = k' := by
          rcases lt_trichotomy k k' with hk | hk | hk
          · exact absurd (by simp [h1]) (h4 k hk)
          · exact hk
          · exact absurd (h2 k' hk) h3
        subst this
        rw [h1] at h5
        cases h5; rfl
    · simp only [h]
      constructor
      · intro hx; cases hx
      · rintro ⟨k, _, h5⟩; rw [h1 k] at h5; cases h5
  · intro hp
    unfold hashToField
    rw [if_neg (by omega)]
    rcases firstSome_cases (ε := ε) (fun k => H.frFromRandom (block (H.stream (padPersona p) m) H.frSize k))
      with ⟨k, a, h1, h2, h⟩ | ⟨h1, h⟩
    · simp only [h]
      exact ⟨fun hx => (by cases hx), fun h3 => (by rw [h3 k] at h1; cases h1)⟩
    · rw [h]
      exact ⟨fun _ => h1, fun _ => rfl⟩

/-- **C51** (`hash_to_field`): panics iff the personalisation is longer than 8 bytes; never returns an error; otherwise
returns `x` iff the first decodable block of the stream of (padded personalisation, message) decodes to `x`, and loops
iff no block decodes. -/
theorem C51_field (H : HashEnv r) (p m : List UInt8) :
    ((hashToField H p m : Res ε _) = .panic ↔ 8 < p.length) ∧
    (∀ e, (hashToField H p m : Res ε _) ≠ .err e) ∧
    (p.length ≤ 8 → ∀ x, (hashToField H p m : Res ε _) = .ok x ↔
      ∃ k, Spec.First (fun j => H.frFromRandom (Spec.window (H.stream (Spec.eightBytes p) m) H.frSize j) ≠ none) k ∧
        H.frFromRandom (Spec.window (H.stream (Spec.eightBytes p) m) H.frSize k) = some x) ∧
    (p.length ≤ 8 → ((hashToField H p m : Res ε _) = .diverge ↔
      ∀ k, H.frFromRandom (Spec.window (H.stream (Spec.eightBytes p) m) H.frSize k) = none)) := by
  obtain ⟨h1, h2, h3, h4⟩ := hashToField_blocks (ε := ε) H p m
  simp only [block_eq] at h3 h4
  exact ⟨h1, h2, fun hp => by rw [← padPersona_eq hp]; exact h3 hp, fun hp => by rw [← padPersona_eq hp]; exact h4 hp⟩

/-- **C51** (determinism): only the padded personalisation and the message matter. -/
theorem C51_deterministic (H : HashEnv r) (p p' m : List UInt8) (hp : p.length ≤ 8) (hp' : p'.length ≤ 8)
    (h : Spec.eightBytes p = Spec.eightBytes p') : (hashToField H p m : Res ε _) = hashToField H p' m := by
  rw [← padPersona_eq hp, ← padPersona_eq hp'] at h
  unfold hashToField
  rw [if_neg (by omega), if_neg (by omega), h]

/-- A block is acceptable for `hash_to_group` when it decodes to a point with non-zero cofactor multiple. -/
def Spec.Acceptable (C : RawCurve G) (b : List UInt8) : Prop := ∃ P, C.fromRandom b = some P ∧ C.cofactor • P ≠ 0

theorem groupAttempt_some (C : RawCurve G) (b : List UInt8) (x : G) :
    (match C.fromRandom b with
      | some p => if C.cofactor • p = 0 then none else some (C.cofactor • p)
      | none => none) = some x ↔ ∃ P, C.fromRandom b = some P ∧ C.cofactor • P ≠ 0 ∧ x = C.cofactor • P := by
  cases hb : C.fromRandom b with
  | none => simp
  | some P =>
    simp only
    split
    · rename_i h; simp [h]
    · rename_i h
      simp only [Option.some.injEq]
      exact ⟨fun hx => ⟨P, rfl, h, hx.symm⟩, fun ⟨Q, hQ, _, hx⟩ => by rw [hQ, hx]⟩

theorem groupAttempt_none (C : RawCurve G) (b : List UInt8) :
    (match C.fromRandom b with
      | some p => if C.cofactor • p = 0 then none else some (C.cofactor • p)
      | none => none) = none ↔ ¬ Spec.Acceptable C b := by
  unfold Spec.Acceptable
  cases hb : C.fromRandom b with
  | none => simp
  | some P =>
    simp only
    split
    · rename_i h; simp [h]
    · rename_i h; simp [h]

/-- `hash_to_group` on the model's blocks. -/
theorem hashToGroup_blocks (H : HashEnv r) (C : RawCurve G) (p m : List UInt8) :
    ((hashToGroup H C p m : Res ε _) = .panic ↔ 8 < p.length) ∧
    (∀ e, (hashToGroup H C p m : Res ε _) ≠ .err e) ∧
    (p.length ≤ 8 → ∀ x, (hashToGroup H C p m : Res ε _) = .ok x ↔
      ∃ k, Spec.First (fun j => Spec.Acceptable C (block (H.stream (padPersona p) m) C.size j)) k ∧
        ∃ P, C.fromRandom (block (H.stream (padPersona p) m) C.size k) = some P ∧ x = C.cofactor • P) ∧
    (p.length ≤ 8 → ((hashToGroup H C p m : Res ε _) = .diverge ↔
      ∀ k, ¬ Spec.Acceptable C (block (H.stream (padPersona p) m) C.size k))) := by
  have key := firstSome_cases (ε := ε) (fun k =>
      match C.fromRandom (block (H.stream (padPersona p) m) C.size k) with
      | some p => if C.cofactor • p = 0 then none else some (C.cofactor • p)
      | none => none)
  simp only [groupAttempt_some, groupAttempt_none] at key
  by_cases hp : 8 < p.length
  · have : (hashToGroup H C p m : Res ε _) = .panic := by unfold hashToGroup; rw [if_pos hp]
    rw [this]
    exact ⟨⟨fun _ => hp, fun _ => rfl⟩, fun e => by simp, fun h => absurd h (by omega), fun h => absurd h (by omega)⟩
  · have hh : (hashToGroup H C p m : Res ε _) = firstSome fun k =>
      match C.fromRandom (block (H.stream (padPersona p) m) C.size k) with
      | some p => if C.cofactor • p = 0 then none else some (C.cofactor • p)
      | none => none := by
      simp only [hashToGroup, if_neg hp]; rfl
    rw [hh]
    rcases key with ⟨k, a, ⟨P, h1, h1', h1''⟩, h2, h⟩ | ⟨h1, h⟩
    · rw [h]
      refine ⟨⟨fun h => (by cases h), fun h => absurd h hp⟩, fun e => by simp, fun _ x => ?_, fun _ => ?_⟩
      · constructor
        · intro hx
          cases hx
          exact ⟨k, ⟨⟨P, h1, h1'⟩, h2⟩, P, h1, h1''⟩
        · rintro ⟨k', ⟨h3, h4⟩, Q, hQ, hx⟩
          have : k = k' := by
            rcases lt_trichotomy k k' with hk | hk | hk
            · exact absurd ⟨P, h1, h1'⟩ (h4 k hk)
            · exact hk
            · exact absurd h3 (h2 k' hk)
          subst this
          rw [h1] at hQ
          cases hQ
          rw [h1'', hx]
      · exact ⟨fun hx => (by cases hx), fun h3 => absurd ⟨P, h1, h1'⟩ (h3 k)⟩
    · rw [h]
      refine ⟨⟨fun h => (by cases h), fun h => absurd h hp⟩, fun e => by simp, fun _ x => ?_, fun _ => ?_⟩
      · exact ⟨fun hx => (by cases hx), fun ⟨k, h3, _⟩ => absurd h3.1 (h1 k)⟩
      · exact ⟨fun _ => h1, fun _ => rfl⟩

/-- **C51** (`hash_to_group`): the same, where a block counts when it decodes to a point with non-zero cofactor multiple; this
multiple is returned. -/
theorem C51_group (H : HashEnv r) (C : RawCurve G) (p m : List UInt8) :
    ((hashToGroup H C p m : Res ε _) = .panic ↔ 8 < p.length) ∧
    (∀ e, (hashToGroup H C p m : Res ε _) ≠ .err e) ∧
    (p.length ≤ 8 → ∀ x, (hashToGroup H C p m : Res ε _) = .ok x ↔
      ∃ k, Spec.First (fun j => Spec.Acceptable C (Spec.window (H.stream (Spec.eightBytes p) m) C.size j)) k ∧
        ∃ P, C.fromRandom (Spec.window (H.stream (Spec.eightBytes p) m) C.size k) = some P ∧ x = C.cofactor • P) ∧
    (p.length ≤ 8 → ((hashToGroup H C p m : Res ε _) = .diverge ↔
      ∀ k, ¬ Spec.Acceptable C (Spec.window (H.stream (Spec.eightBytes p) m) C.size k))) := by
  obtain ⟨h1, h2, h3, h4⟩ := hashToGroup_blocks (ε := ε) H C p m
  simp only [block_eq] at h3 h4
  exact ⟨h1, h2, fun hp => by rw [← padPersona_eq hp]; exact h3 hp, fun hp => by rw [← padPersona_eq hp]; exact h4 hp⟩

/-- **C51** (subgroup): a point returned by `hash_to_group` is non-zero and killed by the prime order, when the full curve
group has order cofactor times the prime (every point is killed by it). -/
theorem C51_subgroup (H : HashEnv r) (C : RawCurve G) (p m : List UInt8) (x : G) (q : ℕ)
    (hord : ∀ P : G, (q * C.cofactor) • P = 0)
    (h : (hashToGroup H C p m : Res ε _) = .ok x) : x ≠ 0 ∧ q • x = 0 := by
  have hp : p.length ≤ 8 := by
    by_contra hp
    rw [(C51_group (ε := ε) H C p m).1.2 (by omega)] at h
    cases h
  obtain ⟨k, ⟨⟨P, h1, h2⟩, _⟩, Q, h3, rfl⟩ := ((C51_group H C p m).2.2.1 hp x).1 h
  rw [h1] at h3
  cases h3
  exact ⟨h2, by rw [← mul_smul]; exact hord P⟩

/-- A toy full curve group: `ZMod 26`, cofactor 2, prime 13; odd bytes are rejected. -/
def Toy.rawCurve : RawCurve (ZMod 26) where
  size := 1
  fromRandom b := if Codec.leVal b % 2 = 1 then none else some (Codec.leVal b : ZMod 26)
  cofactor := 2

/-- A stream 1, 0, 4, …: the first block does not decode, the second decodes to zero, the third is accepted. -/
def Toy.stepHash : HashEnv 13 where
  stream _ _ i := if i = 0 then 1 else if i = 1 then 0 else 4
  frSize := 1
  frFromRandom b := if Codec.leVal b < 4 then none else some (Codec.leVal b : ZMod 13)

/-- Non-vacuity of C51: acceptance at the third block, for both functions. -/
example : (hashToField Toy.stepHash [1, 2] [3] : Res NIZKError _) = .ok 4 ∧
    (hashToGroup Toy.stepHash Toy.rawCurve [1, 2] [3] : Res NIZKError _) = .ok 8 ∧
    (∀ P : ZMod 26, (13 * Toy.rawCurve.cofactor) • P = 0) := by
  refine ⟨((C51_field _ _ _).2.2.1 (by decide) _).2 ⟨2, ⟨by decide, ?_⟩, by decide⟩,
    ((C51_group _ _ _ _).2.2.1 (by decide) _).2 ⟨2, ⟨⟨4, by decide, by decide⟩, ?_⟩, 4, by decide, by decide⟩, by decide⟩
  · intro j hj
    match j, hj with
    | 0, _ => decide
    | 1, _ => decide
  · intro j hj
    match j, hj with
    | 0, _ => rintro ⟨P, h1, h2⟩; exact absurd h1 (by simp [Toy.rawCurve, Toy.stepHash, Spec.window, Codec.leVal])
    | 1, _ =>
      rintro ⟨P, h1, h2⟩
      have : P = 0 := by simpa [Toy.rawCurve, Toy.stepHash, Spec.window, Codec.leVal, eq_comm] using h1
      subst this
      exact h2 (by decide)

end Verif
