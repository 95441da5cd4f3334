import Verif.Props.Verify

/-!
# Exact outcome and randomness of `Node::share`: C73
-/

open Finset Polynomial

namespace Verif

set_option linter.unusedSectionVars false

variable {r : ℕ} [Fact r.Prime] {G1 G2 K : Type}
  [AddCommGroup G1] [DecidableEq G1] [AddCommGroup G2] [DecidableEq G2] [CommMonoid K] [DecidableEq K]
  [Module (ZMod r) G1] [Module (ZMod r) G2]

/-- `share` after a successful `share_pvss`: the only thing that can go wrong is the EdDSA key. -/
theorem share_eq (S : Suite r G1 G2 K) (hH : HashTotal S.hash) (m : Mode) (nd : Node r G1 G2) (rng rng1 : Rng r)
    (core : PVSSCore G1 G2) (sec : PVSSShareSecrets r G1) (h : nd.sharePvss m rng = .ok ((core, sec), rng1)) :
    ∃ d, Decomp.generate S rng1 nd.aggregator.config sec.p0 = .ok (d, rng1.drop 1) ∧
      (S.ed.keypairOk nd.dealer.skEd.bytes = false → nd.share S m rng = .panic) ∧
      (S.ed.keypairOk nd.dealer.skEd.bytes = true → ∃ sig,
        Signature.new S.ed (d.digest S) nd.dealer.skEd = (.ok sig : Res PVSSError _) ∧
        nd.share S m rng = .ok (⟨nd.dealer.participant.id, core, ⟨d, sig⟩⟩, rng1.drop 1)) := by
  obtain ⟨d, hd⟩ := C43_total S hH rng1 nd.aggregator.config sec.p0
  refine ⟨d, hd, fun hk => ?_, fun hk => ?_⟩
  · unfold Node.share
    rw [h, Res.bind_ok']
    simp only
    rw [hd, Res.unwrap_ok, Res.bind_ok']
    simp only [Signature.new, hk]
    rfl
  · refine ⟨_, if_pos hk, ?_⟩
    unfold Node.share
    rw [h, Res.bind_ok']
    simp only
    rw [hd, Res.unwrap_ok, Res.bind_ok']
    simp only
    rw [Signature.new, if_pos hk, Res.bind_ok']

/-- **C73**. Exactly when `Node::share` succeeds, with which error it fails, and when it panics: beyond the conditions of
`share_pvss` (C02) only the stored EdDSA key pair matters. -/
theorem C73 (S : Suite r G1 G2 K) (hH : HashTotal S.hash) (m : Mode) (nd : Node r G1 G2) (rng : Rng r)
    (ht : nd.aggregator.config.degree + 1 < 2 ^ 58) :
    let n := nd.aggregator.config.numParticipants
    let t := nd.aggregator.config.degree
    let missing := fun i => nd.aggregator.participants.get i = none
    ((∃ x, nd.share S m rng = .ok x) ↔
      1 ≤ n ∧ (∀ i < n, ¬ missing i) ∧ nd.dealer.participant.id < n ∧ (∃ k ≤ t, rng k ≠ 0) ∧
        S.ed.keypairOk nd.dealer.skEd.bytes = true) ∧
    (∀ e, nd.share S m rng = .err e ↔
      ∃ k < n, missing k ∧ (∀ i < k, ¬ missing i) ∧ e = .InvalidParticipantId k) ∧
    (nd.share S m rng = .panic ↔
      n = 0 ∨ ((∀ i < n, ¬ missing i) ∧ (n ≤ nd.dealer.participant.id ∨ (∀ k ≤ t, rng k = 0) ∨
        S.ed.keypairOk nd.dealer.skEd.bytes = false))) := by
  intro n t missing
  obtain ⟨c1, c2, c3⟩ := C02 m nd rng ht
  cases hp : nd.sharePvss m rng with
  | ok x =>
    obtain ⟨⟨core, sec⟩, rng1⟩ := x
    obtain ⟨d, -, hbad, hgood⟩ := share_eq S hH m nd rng rng1 core sec hp
    obtain ⟨h1, h2, h3, h4⟩ := c1.1 ⟨_, hp⟩
    cases hk : S.ed.keypairOk nd.dealer.skEd.bytes with
    | false =>
      rw [hbad hk]
      refine ⟨by simp, fun e => ?_, ?_⟩
      · simp only [reduceCtorEq, false_iff]
        rintro ⟨k, hk, hm, -⟩
        exact h2 k hk hm
      · simp only [true_iff]
        exact Or.inr ⟨h2, Or.inr (Or.inr trivial)⟩
    | true =>
      obtain ⟨sig, -, hsh⟩ := hgood hk
      rw [hsh]
      refine ⟨by simpa using ⟨h1, h2, h3, h4⟩, fun e => ?_, ?_⟩
      · simp only [reduceCtorEq, false_iff]
        rintro ⟨k, hk, hm, -⟩
        exact h2 k hk hm
      · simp only [reduceCtorEq, false_iff, not_or, not_and, or_false]
        refine ⟨by omega, fun _ => ⟨by omega, fun h => ?_⟩⟩
        obtain ⟨k, hk, hne⟩ := h4
        exact hne (by simpa using h k hk)
  | err e0 =>
    have hsh : nd.share S m rng = .err e0 := by unfold Node.share; rw [hp]; rfl
    have hno := mt c1.2 (by rw [hp]; simp)
    have hnp := mt c3.2 (by rw [hp]; simp)
    rw [hsh]
    refine ⟨?_, fun e => ?_, ?_⟩
    · simp only [reduceCtorEq, exists_false, false_iff]
      rintro ⟨h1, h2, h3, h4, -⟩
      exact hno ⟨h1, h2, h3, h4⟩
    · exact (show nd.sharePvss m rng = .err e ↔ Res.err e0 = Res.err e by rw [hp]; simp only [Res.err.injEq]).symm.trans (c2 e)
    · simp only [reduceCtorEq, false_iff]
      obtain ⟨k, hk, hm, -⟩ := (c2 e0).1 hp
      rintro (h | ⟨h, -⟩)
      · omega
      · exact h k hk hm
  | panic =>
    have hsh : nd.share S m rng = .panic := by unfold Node.share; rw [hp]; rfl
    have hno := mt c1.2 (by rw [hp]; simp)
    have hne := fun e => mt (c2 e).2 (by rw [hp]; simp)
    rw [hsh]
    refine ⟨?_, fun e => ?_, ?_⟩
    · simp only [reduceCtorEq, exists_false, false_iff]
      rintro ⟨h1, h2, h3, h4, -⟩
      exact hno ⟨h1, h2, h3, h4⟩
    · simp only [reduceCtorEq, false_iff]
      exact hne e
    · simp only [true_iff]
      rcases c3.1 hp with h | ⟨h, h' | h'⟩
      · exact Or.inl h
      · exact Or.inr ⟨h, Or.inl h'⟩
      · exact Or.inr ⟨h, Or.inr (Or.inl h')⟩
  | diverge =>
    exfalso
    have hno := mt c1.2 (by rw [hp]; simp)
    have hnp := mt c3.2 (by rw [hp]; simp)
    have hne := fun e => mt (c2 e).2 (by rw [hp]; simp)
    have h0 : n ≠ 0 := fun h => hnp (Or.inl h)
    by_cases hm : ∀ i < n, ¬ missing i
    · refine hnp (Or.inr ⟨hm, ?_⟩)
      by_contra hc
      push Not at hc
      exact hno ⟨by omega, hm, hc.1, hc.2⟩
    · classical
      have hex : ∃ k, k < n ∧ missing k := by push Not at hm; exact hm
      exact hne _ ⟨Nat.find hex, (Nat.find_spec hex).1, (Nat.find_spec hex).2,
        fun i hi hmi => Nat.find_min hex hi ⟨by have := (Nat.find_spec hex).1; omega, hmi⟩, rfl⟩

/-- **C73** (degrees at or above the allocation limit). `share` never succeeds: it fails exactly as `share_pvss` does (C02). -/
theorem C73_large (S : Suite r G1 G2 K) (m : Mode) (nd : Node r G1 G2) (rng : Rng r)
    (ht : 2 ^ 58 ≤ nd.aggregator.config.degree + 1) (h64 : nd.aggregator.config.degree < 2 ^ 64) :
    let n := nd.aggregator.config.numParticipants
    let missing := fun i => nd.aggregator.participants.get i = none
    (¬ (m = .wrapping ∧ nd.aggregator.config.degree = 2 ^ 64 - 1) → nd.share S m rng = .panic) ∧
    (m = .wrapping → nd.aggregator.config.degree = 2 ^ 64 - 1 →
      (∀ k < n, missing k → (∀ i < k, ¬ missing i) → nd.share S m rng = .err (.InvalidParticipantId k)) ∧
      ((∀ i < n, ¬ missing i) → nd.share S m rng = .panic)) := by
  obtain ⟨h1, h2⟩ := C02_large m nd rng ht h64
  have hp : nd.sharePvss m rng = .panic → nd.share S m rng = .panic := fun h => by unfold Node.share; rw [h]; rfl
  have he : ∀ e, nd.sharePvss m rng = .err e → nd.share S m rng = .err e := fun e h => by unfold Node.share; rw [h]; rfl
  exact ⟨fun h => hp (h1 h), fun hm hd => ⟨fun k hk hmk hb => he _ ((h2 hm hd).1 k hk hmk hb), fun h => hp ((h2 hm hd).2 h)⟩⟩

/-- **C73** (contents and randomness). A produced share carries the dealer's id; its polynomial has the first `t + 1` drawn
values as coefficients, `gs` is the first of them times `g2`; the nonce of the decomposition proof is the next drawn value,
never one of the coefficients, the challenge is the hash of `g2` and the commitment; the signature is the EdDSA signature
of the digest of exactly this proof; and exactly `t + 2` values are consumed. -/
theorem C73_contents (S : Suite r G1 G2 K) (m : Mode) (nd : Node r G1 G2) (rng rng' : Rng r) (sh : PVSSShare r G1 G2)
    (pk : ℕ → G1) (hpk : ∀ i q, nd.aggregator.participants.get i = some q → q.pkSig = pk i)
    (ht : nd.aggregator.config.degree + 1 < 2 ^ 58) (h : nd.share S m rng = .ok (sh, rng')) :
    let t := nd.aggregator.config.degree
    let g2 := nd.aggregator.config.srs.g2
    let d := sh.signedProof.decompProof
    sh.participantId = nd.dealer.participant.id ∧
    (∃ p : (ZMod r)[X], (∀ k, p.coeff k = if k ≤ t then rng k else 0) ∧
      Spec.Shares g2 nd.aggregator.config.numParticipants t pk sh.core p) ∧
    d.gs = rng 0 • g2 ∧ d.proof.1 = rng (t + 1) • g2 ∧
    (hashToField S.hash (ascii "DLKNIZK") (S.c2.codec.enc g2 ++ S.c2.codec.enc d.proof.1) : Res NIZKError _) =
      .ok d.proof.2.1 ∧
    d.proof.2.2 = rng (t + 1) - rng 0 * d.proof.2.1 ∧
    Bytes.append32 sh.signedProof.signature.part1 sh.signedProof.signature.part2 =
      S.ed.sign nd.dealer.skEd.bytes (S.shake (S.c2.codec.enc d.proof.1 ++ (S.frC.enc d.proof.2.1 ++
        S.frC.enc d.proof.2.2) ++ S.c2.codec.enc d.gs)).1 ∧
    ∀ i, rng' i = rng (t + 2 + i) := by
  unfold Node.share at h
  rw [Res.bind_eq_ok] at h
  obtain ⟨⟨⟨core, sec⟩, rng1⟩, h1, h⟩ := h
  simp only [Res.bind_eq_ok] at h
  obtain ⟨⟨d, rng2⟩, h2, sig, h3, h⟩ := h
  obtain ⟨rfl, rfl⟩ := Prod.mk.inj (Res.ok.inj h)
  obtain ⟨p, hp1, hp2, hp3, hp4⟩ := C01_sample m nd rng rng1 core sec pk hpk ht h1
  rw [Res.unwrap_eq_ok] at h2
  unfold Decomp.generate at h2
  rw [Res.bind_eq_ok] at h2
  obtain ⟨⟨proof, rng3⟩, h4, h5⟩ := h2
  obtain ⟨rfl, rfl⟩ := Prod.mk.inj (Res.ok.inj h5)
  rw [Res.unwrap_eq_ok] at h4
  unfold DLK.prove at h4
  rw [Res.bind_eq_ok] at h4
  obtain ⟨c, hc, h6⟩ := h4
  obtain ⟨rfl, rfl⟩ := Prod.mk.inj (Res.ok.inj h6)
  have h0 : rng1 0 = rng (nd.aggregator.config.degree + 1) := hp4 0
  refine ⟨rfl, ⟨p, hp1, hp2⟩, ?_, ?_, ?_, ?_, ?_, fun i => ?_⟩
  · simp only [mulRepr_eq_smul, hp3]
  · simp only [mulRepr_eq_smul, h0]
  · exact hc
  · simp only [h0, hp3]
  · unfold Signature.new at h3
    split at h3
    · cases h3
      apply Subtype.ext
      simp only [Bytes.append32]
      rw [List.take_of_length_le (l := (S.ed.sign _ _).1) (i := 64) (le_of_eq (S.ed.sign _ _).2), List.take_append_drop]
      rfl
    · cases h3
  · show rng1 (1 + i) = _
    rw [hp4, ← add_assoc]

/-- Non-vacuity of C73: the concrete dealer succeeds, has proof nonce 0 (the third value of its stream) and secret 5. -/
example : (∃ x, (Toy.node 2).share (Toy.suite 13) .checked Toy.rng52 = .ok x) ∧
    ∃ sh rng', (Toy.node 2).share (Toy.suite 13) .checked Toy.rng52 = .ok (sh, rng') ∧
      sh.signedProof.decompProof.gs = (5 : ZMod 13) • (1 : ZMod 13) := by
  obtain ⟨sh, rng', h, -⟩ := Toy.share52
  refine ⟨⟨_, h⟩, sh, rng', h, ?_⟩
  have := (C73_contents (Toy.suite 13) .checked (Toy.node 2) Toy.rng52 rng' sh
    (fun i => match (Toy.node 2).aggregator.participants.get i with | some q => q.pkSig | none => 0)
    (fun i q hq => by simp [hq]) (by decide) h).2.2.1
  rw [this]
  rfl

/-- Non-vacuity of C73 (failure): a dealer whose EdDSA key halves do not match panics. -/
example : (⟨(Toy.node 2).aggregator, { (Toy.node 2).dealer with
      skEd := ⟨Bytes.append32 (Toy.pad32 [1]) (Toy.pad32 [2])⟩ }⟩ : Node 13 (ZMod 13) (ZMod 13)).share (Toy.suite 13) .checked
      Toy.rng52 = .panic := by
  refine ((C73 (Toy.suite 13) (Toy.hashTotal 13) .checked _ Toy.rng52 (by decide)).2.2).2 (Or.inr ⟨by decide, Or.inr (Or.inr ?_)⟩)
  decide

end Verif
