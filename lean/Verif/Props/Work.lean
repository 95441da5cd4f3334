import Verif.Lemmas.Honest
import Verif.Lemmas.Halts
import Verif.Model.Schnorr
import Verif.Props.Verify

/-!
# Work per call: C105

How many pairings, hash computations, signature checks and random scalars a call uses.  Stated by what the result can depend on: in
any two worlds (implementations of the external functions, random streams) that agree on that many answers the call does the same.
-/

set_option linter.unusedSectionVars false
set_option linter.unnecessarySeqFocus false

namespace Verif

variable {r : ℕ} [Fact r.Prime] {G G1 G2 K : Type} [AddCommGroup G] [DecidableEq G]
  [AddCommGroup G1] [DecidableEq G1] [AddCommGroup G2] [DecidableEq G2] [CommMonoid K] [DecidableEq K]

namespace Spec

/-- `S` has the wire formats and the way of reading scalars of `W`, and its SHAKE256 agrees at the inputs `ds`. -/
structure Like (W S : Suite r G1 G2 K) (ds : List (List UInt8)) : Prop where
  c1 : S.c1 = W.c1
  c2 : S.c2 = W.c2
  frC : S.frC = W.frC
  frSize : S.hash.frSize = W.hash.frSize
  frFromRandom : S.hash.frFromRandom = W.hash.frFromRandom
  shake : ∀ d ∈ ds, S.shake d = W.shake d

/-- Two hash environments give the same stream for the inputs (personalisation, message) of `ms`. -/
def SameHash (H H' : HashEnv r) (ms : List (List UInt8 × List UInt8)) : Prop :=
  ∀ q ∈ ms, H'.stream q.1 q.2 = H.stream q.1 q.2

/-- Two suites give the same pairings at `ps`, the same streams at `ms` and the same verdicts on the (key, message, signature) of
`es`. -/
structure SameWorld (S S' : Suite r G1 G2 K) (ps : List (G1 × G2)) (ms : List (List UInt8 × List UInt8))
    (es : List (Bytes 32 × List UInt8 × Bytes 64)) : Prop where
  pair : ∀ p ∈ ps, S'.pair p.1 p.2 = S.pair p.1 p.2
  hash : SameHash S.hash S'.hash ms
  ed : ∀ e ∈ es, S'.ed.sigOk e.2.2 = S.ed.sigOk e.2.2 ∧ S'.ed.pkOk e.1 = S.ed.pkOk e.1 ∧
    S'.ed.verifyStrict e.1 e.2.1 e.2.2 = S.ed.verifyStrict e.1 e.2.1 e.2.2

/-- Two streams have the same first `k` scalars. -/
def SameDraws (k : ℕ) (rng rng' : Rng r) : Prop := ∀ i < k, rng' i = rng i

end Spec

/-! ### Helper lemmas -/

theorem loop_congr {ε σ α : Type} {f g : σ → α → Res ε σ} {l : List α} (h : ∀ s, ∀ x ∈ l, f s x = g s x) (s : σ) :
    loop f s l = loop g s l := by
  induction l generalizing s with
  | nil => rfl
  | cons x xs ih =>
    unfold loop
    rw [h s x List.mem_cons_self]
    cases g s x with
    | ok a => exact ih (fun s y hy => h s y (List.mem_cons_of_mem _ hy)) a
    | err e => rfl
    | panic => rfl
    | diverge => rfl

/-- `ensure_degree` reads fewer than `n - t` scalars. -/
theorem ensureDegree_reads (m : Mode) (rng rng' : Rng r) (evs : List G) (t : ℕ)
    (h : ∀ i < evs.length - t - 1, rng' i = rng i) :
    (∃ c, c < evs.length - t ∧ ensureDegree m rng evs t = .ok (rng.drop c) ∧ ensureDegree m rng' evs t = .ok (rng'.drop c)) ∨
      (∃ e, ensureDegree m rng evs t = .err e ∧ ensureDegree m rng' evs t = .err e) ∨
      (ensureDegree m rng evs t = .panic ∧ ensureDegree m rng' evs t = .panic) ∨
      (ensureDegree m rng evs t = .diverge ∧ ensureDegree m rng' evs t = .diverge) := by
  by_cases hlt : evs.length < t
  · exact Or.inr (Or.inl ⟨.InsufficientEvaluationsError, by simp only [ensureDegree, if_pos hlt], by simp only [ensureDegree, if_pos hlt]⟩)
  have hsub : (subU64 m evs.length t : Res PVSSError ℕ) = .ok (evs.length - t) := by
    unfold subU64; rw [if_pos (by omega)]
  have key : ∀ g : Rng r, ensureDegree m g evs t = (do
      let d ← subU64 m (evs.length - t) 2
      let (poly, g) ← polyRand m g d
      let sum ← loop (fun (s : G) (i : ℕ) => do
          let c ← cperp poly evs.length i
          let ev ← idx evs (i - 1)
          .ok (s + mulRepr ev c)) 0 (range1 evs.length)
      if sum ≠ 0 then .err .DualCodeError else .ok g) := by
    intro g
    simp only [ensureDegree, if_neg hlt, hsub]
    rfl
  rw [key, key]
  cases hd : (subU64 m (evs.length - t) 2 : Res PVSSError ℕ) with
  | err e => exact Or.inr (Or.inl ⟨e, rfl, rfl⟩)
  | panic => exact Or.inr (Or.inr (Or.inl ⟨rfl, rfl⟩))
  | diverge => exact Or.inr (Or.inr (Or.inr ⟨rfl, rfl⟩))
  | ok d =>
    simp only [Res.bind_ok']
    unfold polyRand
    cases hc : (polyCount m d : Res PVSSError ℕ) with
    | err e => exact Or.inr (Or.inl ⟨e, rfl, rfl⟩)
    | panic => exact Or.inr (Or.inr (Or.inl ⟨rfl, rfl⟩))
    | diverge => exact Or.inr (Or.inr (Or.inr ⟨rfl, rfl⟩))
    | ok cnt =>
      simp only [Res.bind_ok']
      by_cases hcap : 2 ^ 63 - 1 < cnt * 32
      · simp only [if_pos hcap]
        exact Or.inr (Or.inr (Or.inl ⟨rfl, rfl⟩))
      · simp only [if_neg hcap, Res.bind_ok']
        have hcnt : cnt ≤ evs.length - t - 1 ∧ cnt < evs.length - t := by
          unfold subU64 at hd
          unfold polyCount addU64 at hc
          cases m <;> simp only at hd hc <;> split at hd <;> simp only [Res.ok.injEq, reduceCtorEq] at hd
          all_goals first
            | (simp only [Res.ok.injEq] at hc; omega)
            | (split at hc <;> simp only [Res.ok.injEq, reduceCtorEq] at hc <;> omega)
        have hl : (List.range cnt).map rng' = (List.range cnt).map rng :=
          List.map_congr_left fun i hi => h i (by have := List.mem_range.1 hi; omega)
        rw [hl]
        cases loop (fun (s : G) (i : ℕ) => do
            let c ← cperp (trim ((List.range cnt).map rng)) evs.length i
            let ev ← idx evs (i - 1)
            .ok (s + mulRepr ev c)) 0 (range1 evs.length) with
        | err e => exact Or.inr (Or.inl ⟨e, rfl, rfl⟩)
        | panic => exact Or.inr (Or.inr (Or.inl ⟨rfl, rfl⟩))
        | diverge => exact Or.inr (Or.inr (Or.inr ⟨rfl, rfl⟩))
        | ok s =>
          simp only [Res.bind_ok']
          by_cases hs : s ≠ 0
          · exact Or.inr (Or.inl ⟨.DualCodeError, by rw [if_pos hs], by rw [if_pos hs]⟩)
          · simp only [if_neg hs]
            exact Or.inl ⟨cnt, hcnt.2, rfl, rfl⟩

theorem hashToField_same {ε : Type} {H H' : HashEnv r} (hs : H'.frSize = H.frSize) (hf : H'.frFromRandom = H.frFromRandom)
    {persona msg : List UInt8} (h : H'.stream (padPersona persona) msg = H.stream (padPersona persona) msg) :
    (hashToField H' persona msg : Res ε (ZMod r)) = hashToField H persona msg := by
  unfold hashToField
  rw [hs, hf, h]

/-- The hash input of a proof. -/
def Work.msg (W : Suite r G1 G2 K) (g2 : G2) (p : SignedProof r G2) : List UInt8 × List UInt8 :=
  (padPersona DLK.persona, W.c2.codec.enc g2 ++ W.c2.codec.enc p.decompProof.proof.1)

/-- The signed bytes of a proof. -/
def Work.doc (W : Suite r G1 G2 K) (p : SignedProof r G2) : List UInt8 :=
  (proofCodec W).enc p.decompProof.proof ++ W.c2.codec.enc p.decompProof.gs

/-- The signature check of a proof. -/
def Work.vote (W : Suite r G1 G2 K) (pk : PublicKey) (p : SignedProof r G2) : Bytes 32 × List UInt8 × Bytes 64 :=
  (pk.bytes, (W.shake (Work.doc W p)).1, p.signature.flatten)

theorem signedProof_same {W S S' : Suite r G1 G2 K} (p : SignedProof r G2) (cfg : Config G1 G2) (pk : PublicKey)
    {ds : List (List UInt8)} {ps : List (G1 × G2)} {ms : List (List UInt8 × List UInt8)}
    {es : List (Bytes 32 × List UInt8 × Bytes 64)} (h : Spec.Like W S ds) (h' : Spec.Like W S' ds) (ha : Spec.SameWorld S S' ps ms es)
    (hd : Work.doc W p ∈ ds) (hm : Work.msg W cfg.srs.g2 p ∈ ms) (he : Work.vote W pk p ∈ es) :
    p.verify S' cfg pk = p.verify S cfg pk := by
  have h1 : (p.decompProof.verify S' cfg) = p.decompProof.verify S cfg := by
    unfold DecompProof.verify DLK.verify DLK.challenge
    rw [hashToField_same (H := S.hash) (H' := S'.hash) (by rw [h.frSize, h'.frSize]) (by rw [h.frFromRandom, h'.frFromRandom])
      (by rw [h'.c2]; exact ha.hash _ hm), h.c2, h'.c2]
  have hdoc : ∀ T : Suite r G1 G2 K, Spec.Like W T ds → p.decompProof.digest T = ⟨W.shake (Work.doc W p)⟩ := by
    intro T hT
    unfold DecompProof.digest proofCodec
    rw [hT.c2, hT.frC]
    exact congrArg Digest.mk (hT.shake _ hd)
  obtain ⟨e1, e2, e3⟩ := ha.ed _ he
  simp only [Work.vote] at e1 e2 e3
  unfold SignedProof.verify
  rw [h1, hdoc S h, hdoc S' h']
  unfold Signature.verify
  rw [e1, e2, e3]

/-- The outcome with a function applied to a result. -/
def Res.mapOk {ε α β : Type} (f : α → β) : Res ε α → Res ε β
  | .ok x => .ok (f x)
  | .err e => .err e
  | .panic => .panic
  | .diverge => .diverge

/-- What is left of an outcome when the generator is forgotten. -/
def Res.void {ε α : Type} : Res ε α → Res ε Unit
  | .ok _ => .ok ()
  | .err e => .err e
  | .panic => .panic
  | .diverge => .diverge

theorem receiveShare_void {S S' : Suite r G1 G2 K} (m : Mode) (a : Aggregator r G1 G2) {rng rng' : Rng r} (sh : PVSSShare r G1 G2)
    (h : (a.shareVerify S' m rng' sh).void = (a.shareVerify S m rng sh).void) :
    a.receiveShare S' m rng' sh = a.receiveShare S m rng sh := by
  unfold Aggregator.receiveShare
  cases hx : a.shareVerify S' m rng' sh <;> cases hy : a.shareVerify S m rng sh <;>
    simp only [hx, hy, Res.void, Res.err.injEq, reduceCtorEq] at h
  all_goals rfl

theorem receiveAggregatedShare_void {S S' : Suite r G1 G2 K} (m : Mode) (a : Aggregator r G1 G2) {rng rng' : Rng r}
    (ag : AggShare r G1 G2)
    (h : (a.aggregationVerify S' m rng' ag).void = (a.aggregationVerify S m rng ag).void) :
    a.receiveAggregatedShare S' m rng' ag = a.receiveAggregatedShare S m rng ag := by
  unfold Aggregator.receiveAggregatedShare
  cases hx : a.aggregationVerify S' m rng' ag <;> cases hy : a.aggregationVerify S m rng ag <;>
    simp only [hx, hy, Res.void, Res.err.injEq, reduceCtorEq] at h
  all_goals rfl

theorem coreVerify_reads (m : Mode) (a : Aggregator r G1 G2) (rng rng' : Rng r) (d : DecompProof r G2) (core : PVSSCore G1 G2)
    (h : Spec.SameDraws (a.config.numParticipants - a.config.degree - 1) rng rng') :
    (a.coreVerify m rng' d core).void = (a.coreVerify m rng d core).void := by
  unfold Aggregator.coreVerify
  by_cases hl : core.encs.length ≠ a.config.numParticipants ∨ core.comms.length ≠ a.config.numParticipants
  · rw [if_pos hl, if_pos hl]
  · rw [if_neg hl, if_neg hl]
    push Not at hl
    rcases ensureDegree_reads m rng rng' core.comms a.config.degree (by rw [hl.2]; exact h) with
      ⟨c, -, h1, h2⟩ | ⟨e, h1, h2⟩ | ⟨h1, h2⟩ | ⟨h1, h2⟩ <;> rw [h1, h2] <;> try rfl
    simp only [Res.orErr, Res.bind_ok']
    cases ((lagrangeSimple (r := r) m core.comms a.config.degree).unwrap : Res PVSSError G2) with
    | ok P =>
      simp only [Res.bind_ok']
      split <;> rfl
    | err e => rfl
    | panic => rfl
    | diverge => rfl

/-! ### The theorems -/

/-- **C105** (`receive_share`). Receiving a share takes two pairings, one challenge hash, one digest, one signature check and at
most `n - t - 1` random scalars. -/
theorem C105_share (W : Suite r G1 G2 K) (m : Mode) (a : Aggregator r G1 G2) (sh : PVSSShare r G1 G2) :
    ∃ (ps : List (G1 × G2)) (ms : List (List UInt8 × List UInt8)) (ds : List (List UInt8))
      (es : List (Bytes 32 × List UInt8 × Bytes 64)), ps.length ≤ 2 ∧ ms.length ≤ 1 ∧ ds.length ≤ 1 ∧ es.length ≤ 1 ∧
      ∀ (S S' : Suite r G1 G2 K), Spec.Like W S ds → Spec.Like W S' ds → Spec.SameWorld S S' ps ms es →
      ∀ rng rng' : Rng r, Spec.SameDraws (a.config.numParticipants - a.config.degree - 1) rng rng' →
        a.receiveShare S' m rng' sh = a.receiveShare S m rng sh := by
  cases hp : a.participants.get sh.participantId with
  | none =>
    refine ⟨[], [], [], [], by simp, by simp, by simp, by simp, fun S S' _ _ _ rng rng' _ => receiveShare_void m a sh ?_⟩
    simp only [Aggregator.shareVerify, hp, Res.ofOption]
    rfl
  | some p =>
    cases hc : (idx sh.core.comms sh.participantId : Res PVSSError G2) with
    | ok c =>
      cases he : (idx sh.core.encs sh.participantId : Res PVSSError G1) with
      | ok e =>
        refine ⟨[(p.pkSig, c), (-e, a.config.srs.g2)], [Work.msg W a.config.srs.g2 sh.signedProof], [Work.doc W sh.signedProof],
          [Work.vote W p.pkEd sh.signedProof], by simp, by simp, by simp, by simp,
          fun S S' h h' ha rng rng' hr => receiveShare_void m a sh ?_⟩
        have hv := signedProof_same sh.signedProof a.config p.pkEd h h' ha (by simp) (by simp) (by simp)
        have hpp : prodPairings S' [(p.pkSig, c), (-e, a.config.srs.g2)] = prodPairings S [(p.pkSig, c), (-e, a.config.srs.g2)] := by
          unfold prodPairings
          rw [List.map_congr_left ha.pair]
        have hcore := coreVerify_reads m a rng rng' sh.signedProof.decompProof sh.core hr
        simp only [Aggregator.shareVerify, hp, Res.ofOption, hc, he, Res.bind_ok', hpp, hv]
        split
        · rfl
        · cases hx : a.coreVerify m rng' sh.signedProof.decompProof sh.core <;>
            cases hy : a.coreVerify m rng sh.signedProof.decompProof sh.core <;>
            simp only [hx, hy, Res.void, Res.err.injEq, reduceCtorEq] at hcore
          · simp only [Res.bind_ok']
            cases ((sh.signedProof.verify S a.config p.pkEd).orErr PVSSError.InvalidSignedProofError : Res PVSSError Unit) <;> rfl
          · subst hcore; rfl
          · rfl
          · rfl
      | err x => exact absurd he (by unfold idx; split <;> simp)
      | panic =>
        refine ⟨[], [], [], [], by simp, by simp, by simp, by simp, fun S S' _ _ _ rng rng' _ => receiveShare_void m a sh ?_⟩
        simp only [Aggregator.shareVerify, hp, Res.ofOption, hc, he, Res.bind_ok']
        rfl
      | diverge => exact absurd he (by unfold idx; split <;> simp)
    | err x => exact absurd hc (by unfold idx; split <;> simp)
    | panic =>
      refine ⟨[], [], [], [], by simp, by simp, by simp, by simp, fun S S' _ _ _ rng rng' _ => receiveShare_void m a sh ?_⟩
      simp only [Aggregator.shareVerify, hp, Res.ofOption, hc, Res.bind_ok']
      rfl
    | diverge => exact absurd hc (by unfold idx; split <;> simp)

theorem pairStep_length (a : Aggregator r G1 G2) (core : PVSSCore G1 G2) (rs : List (ZMod r)) (l : List ℕ)
    (st st' : G1 × List (G1 × G2)) (h : loop (a.pairStep core rs) st l = .ok st') : st'.2.length = st.2.length + l.length := by
  induction l generalizing st with
  | nil => simp only [loop, Res.ok.injEq] at h; simp [h]
  | cons i is ih =>
    unfold loop at h
    cases hs : a.pairStep core rs st i with
    | ok x =>
      rw [hs] at h
      rw [ih x h]
      unfold Aggregator.pairStep at hs
      cases h1 : (idx core.encs i : Res PVSSError G1) with
      | ok e =>
        cases h2 : (idx rs i : Res PVSSError (ZMod r)) with
        | ok ri =>
          cases h3 : (Res.unwrapOpt (a.participants.get i) : Res PVSSError (Participant G1)) with
          | ok p =>
            cases h4 : (idx core.comms i : Res PVSSError G2) with
            | ok c =>
              simp only [h1, h2, h3, h4, Res.bind_ok', Res.ok.injEq] at hs
              subst hs
              simp
              omega
            | _ => simp only [h1, h2, h3, h4, Res.bind_ok'] at hs; exact absurd hs (by simp [Res.bind_err', Res.bind_panic', Res.bind_diverge'])
          | _ => simp only [h1, h2, h3, Res.bind_ok'] at hs; exact absurd hs (by simp [Res.bind_err', Res.bind_panic', Res.bind_diverge'])
        | _ => simp only [h1, h2, Res.bind_ok'] at hs; exact absurd hs (by simp [Res.bind_err', Res.bind_panic', Res.bind_diverge'])
      | _ => simp only [h1] at hs; exact absurd hs (by simp [Res.bind_err', Res.bind_panic', Res.bind_diverge'])
    | err e => rw [hs] at h; simp at h
    | panic => rw [hs] at h; simp at h
    | diverge => rw [hs] at h; simp at h

/-- **C105** (`receive_aggregated_share`). Receiving a transcript takes `n + 1` pairings (the comment at aggregator.rs:185), one
challenge hash, one digest and one signature check per contribution, and at most `n - t` random scalars. -/
theorem C105_aggregated (W : Suite r G1 G2 K) (m : Mode) (a : Aggregator r G1 G2) (ag : AggShare r G1 G2) (rng : Rng r) :
    ∃ (ps : List (G1 × G2)) (ms : List (List UInt8 × List UInt8)) (ds : List (List UInt8))
      (es : List (Bytes 32 × List UInt8 × Bytes 64)), ps.length ≤ a.config.numParticipants + 1 ∧
      ms.length ≤ ag.contributions.entries.length ∧ ds.length ≤ ag.contributions.entries.length ∧
      es.length ≤ ag.contributions.entries.length ∧
      ∀ (S S' : Suite r G1 G2 K), Spec.Like W S ds → Spec.Like W S' ds → Spec.SameWorld S S' ps ms es →
      ∀ rng' : Rng r, Spec.SameDraws (a.config.numParticipants - a.config.degree) rng rng' →
        a.receiveAggregatedShare S' m rng' ag = a.receiveAggregatedShare S m rng ag := by
  classical
  -- the pairs built from a given scalar
  let mk : ZMod r → List (G1 × G2) := fun ρ =>
    match loop (a.pairStep ag.core (List.replicate a.config.numParticipants ρ)) (0, []) (List.range a.config.numParticipants) with
    | .ok x => x.2 ++ [(-x.1, a.config.srs.g2)]
    | _ => []
  have hmk : ∀ ρ, (mk ρ).length ≤ a.config.numParticipants + 1 := by
    intro ρ
    simp only [mk]
    split
    · rename_i x hx
      have := pairStep_length _ _ _ _ _ _ hx
      simp [this]
    · simp
  let ps : List (G1 × G2) := match ensureDegree m rng ag.core.comms a.config.degree with
    | .ok g => mk (g 0)
    | _ => []
  let vs := ag.contributions.entries.filterMap fun e => (a.participants.get e.1).map fun p => Work.vote W p.pkEd e.2.1
  refine ⟨ps, ag.contributions.entries.map fun e => Work.msg W a.config.srs.g2 e.2.1,
    ag.contributions.entries.map fun e => Work.doc W e.2.1, vs, ?_, by simp, by simp, List.length_filterMap_le _ _, ?_⟩
  · simp only [ps]
    split
    · exact hmk _
    · simp
  intro S S' h h' ha rng' hr
  apply receiveAggregatedShare_void
  have hstep : ∀ tot, ∀ e ∈ ag.contributions.entries, a.contribStep S' tot e = a.contribStep S tot e := by
    intro tot e he
    unfold Aggregator.contribStep
    cases hp : a.participants.get e.1 with
    | none => rfl
    | some p =>
      simp only [Res.unwrapOpt, Res.bind_ok']
      rw [signedProof_same e.2.1 a.config p.pkEd h h' ha (List.mem_map_of_mem he) (List.mem_map_of_mem he)
        (List.mem_filterMap.2 ⟨e, he, by simp [hp]⟩)]
  have hpair := ha.pair
  clear_value vs
  unfold Aggregator.aggregationVerify
  simp only
  by_cases hl : ag.core.encs.length ≠ a.config.numParticipants ∨ ag.core.comms.length ≠ a.config.numParticipants
  · rw [if_pos hl, if_pos hl]
  · rw [if_neg hl, if_neg hl]
    push Not at hl
    rcases ensureDegree_reads m rng rng' ag.core.comms a.config.degree (by rw [hl.2]; exact fun i hi => hr i (by omega)) with
      ⟨c, hc, h1, h2⟩ | ⟨e, h1, h2⟩ | ⟨h1, h2⟩ | ⟨h1, h2⟩
    · simp only [ps, h1] at hpair
      rw [h1, h2]
      have h0 : rng'.drop c 0 = rng.drop c 0 := by
        have := hr c (by rw [← hl.2]; exact hc)
        simpa [Rng.drop] using this
      simp only [Res.orErr, Res.bind_ok', h0]
      simp only [mk] at hpair
      cases hx : loop (a.pairStep ag.core (List.replicate a.config.numParticipants (rng.drop c 0))) (0, [])
          (List.range a.config.numParticipants) with
      | ok x =>
        rw [hx] at hpair
        simp only at hpair
        simp only [Res.bind_ok']
        have hpp : prodPairings S' (x.2 ++ [(-x.1, a.config.srs.g2)]) = prodPairings S (x.2 ++ [(-x.1, a.config.srs.g2)]) := by
          unfold prodPairings
          rw [List.map_congr_left hpair]
        rw [hpp, loop_congr hstep]
        split
        · rfl
        · cases ((lagrangeSimple (r := r) m ag.core.comms a.config.degree).unwrap : Res PVSSError G2) with
          | ok P =>
            simp only [Res.bind_ok']
            cases loop (a.contribStep S) 0 ag.contributions.entries with
            | ok g => simp only [Res.bind_ok']; split <;> rfl
            | err e => rfl
            | panic => rfl
            | diverge => rfl
          | err e => rfl
          | panic => rfl
          | diverge => rfl
      | err e => rfl
      | panic => rfl
      | diverge => rfl
    all_goals rw [h1, h2]; rfl

/-- **C105** (Schnorr `verify`, dlk and dleq `verify`). Each takes one challenge hash, known before the call. -/
theorem C105_verify (C : Curve G) (C1 : Curve G1) (C2 : Curve G2) (g pk : G) (msg : List UInt8) (sig : Schnorr.Sig r G)
    (proof : DLK.Proof r G) (srs stmnt : G1 × G2) (eq : DLEQ.Proof r G1 G2) :
    ∃ q1 q2 q3 : List UInt8 × List UInt8, ∀ H H' : HashEnv r, H'.frSize = H.frSize → H'.frFromRandom = H.frFromRandom →
      (Spec.SameHash H H' [q1] → Schnorr.verify C H' g pk msg sig = Schnorr.verify C H g pk msg sig) ∧
      (Spec.SameHash H H' [q2] → DLK.verify C H' g pk proof = DLK.verify C H g pk proof) ∧
      (Spec.SameHash H H' [q3] → DLEQ.verify C1 C2 H' srs stmnt eq = DLEQ.verify C1 C2 H srs stmnt eq) := by
  refine ⟨(padPersona Schnorr.persona, Schnorr.hashInput C g msg sig.1), (padPersona DLK.persona, C.codec.enc g ++ C.codec.enc proof.1),
    (padPersona DLEQ.persona, DLEQ.hashInput C1 C2 srs stmnt eq.1), fun H H' hs hf => ⟨fun h => ?_, fun h => ?_, fun h => ?_⟩⟩
  · unfold Schnorr.verify Schnorr.challenge
    rw [hashToField_same hs hf (h _ (List.mem_singleton.2 rfl))]
  · unfold DLK.verify DLK.challenge
    rw [hashToField_same hs hf (h _ (List.mem_singleton.2 rfl))]
  · unfold DLEQ.verify DLEQ.challenge
    rw [hashToField_same hs hf (h _ (List.mem_singleton.2 rfl))]

/-- **C105** (`sign`, dlk and dleq `prove`). Each draws one scalar and takes one challenge hash. -/
theorem C105_prove (C : Curve G) (C1 : Curve G1) (C2 : Curve G2) (g : G) (msg : List UInt8) (srs : G1 × G2) (rng : Rng r)
    (w : ZMod r) :
    ∃ q1 q2 q3 : List UInt8 × List UInt8, ∀ H H' : HashEnv r, H'.frSize = H.frSize → H'.frFromRandom = H.frFromRandom →
      ∀ rng' : Rng r, Spec.SameDraws 1 rng rng' →
      (Spec.SameHash H H' [q1] →
        (Schnorr.sign C H' g rng' w msg).mapOk Prod.fst = (Schnorr.sign C H g rng w msg).mapOk Prod.fst) ∧
      (Spec.SameHash H H' [q2] → (DLK.prove C H' g rng' w).mapOk Prod.fst = (DLK.prove C H g rng w).mapOk Prod.fst) ∧
      (Spec.SameHash H H' [q3] →
        (DLEQ.prove C1 C2 H' srs rng' w).mapOk Prod.fst = (DLEQ.prove C1 C2 H srs rng w).mapOk Prod.fst) := by
  refine ⟨(padPersona Schnorr.persona, Schnorr.hashInput C g msg (mulRepr g (rng 0))),
    (padPersona DLK.persona, C.codec.enc g ++ C.codec.enc (mulRepr g (rng 0))),
    (padPersona DLEQ.persona, DLEQ.hashInput C1 C2 srs (mulRepr srs.1 w, mulRepr srs.2 w)
      (mulRepr srs.1 (rng 0), mulRepr srs.2 (rng 0))), fun H H' hs hf rng' hr => ?_⟩
  have h0 : rng' 0 = rng 0 := hr 0 (by omega)
  refine ⟨fun h => ?_, fun h => ?_, fun h => ?_⟩
  · simp only [Schnorr.sign, Schnorr.challenge, h0]
    rw [hashToField_same hs hf (h _ (List.mem_singleton.2 rfl))]
    cases (hashToField H _ _ : Res SignatureError (ZMod r)) <;> rfl
  · simp only [DLK.prove, DLK.challenge, h0]
    rw [hashToField_same hs hf (h _ (List.mem_singleton.2 rfl))]
    cases (hashToField H _ _ : Res NIZKError (ZMod r)) <;> rfl
  · simp only [DLEQ.prove, DLEQ.challenge, h0]
    rw [hashToField_same hs hf (h _ (List.mem_singleton.2 rfl))]
    cases (hashToField H _ _ : Res NIZKError (ZMod r)) <;> rfl

/-- **C105** (`batch_verify`). One random scalar and one challenge hash per signature. -/
theorem C105_batch (C : Curve G) (g : G) (pks : List G) (msgs : List (List UInt8)) (sigs : List (Schnorr.Sig r G)) :
    ∃ ms : List (List UInt8 × List UInt8), ms.length ≤ sigs.length ∧
      ∀ H H' : HashEnv r, H'.frSize = H.frSize → H'.frFromRandom = H.frFromRandom → Spec.SameHash H H' ms →
      ∀ rng rng' : Rng r, Spec.SameDraws 1 rng rng' →
        Schnorr.batchVerify C H' g rng' pks msgs sigs = Schnorr.batchVerify C H g rng pks msgs sigs := by
  refine ⟨(sigs.zip msgs).map fun x => (padPersona Schnorr.persona, Schnorr.hashInput C g x.2 x.1.1), by simp,
    fun H H' hs hf hm rng rng' hr => ?_⟩
  have h0 : rng' 0 = rng 0 := hr 0 (by omega)
  unfold Schnorr.batchVerify
  simp only [h0]
  rw [loop_congr (f := Schnorr.batchStep C H' g (rng 0) pks msgs sigs) (g := Schnorr.batchStep C H g (rng 0) pks msgs sigs)]
  intro acc i _
  unfold Schnorr.batchStep
  by_cases hi : i < sigs.length
  · by_cases hj : i < msgs.length
    · have h1 : (idx sigs i : Res SignatureError _) = .ok sigs[i] := by simp [idx, hi]
      have h2 : (idx msgs i : Res SignatureError _) = .ok msgs[i] := by simp [idx, hj]
      rw [h1, h2]
      simp only [Res.bind_ok', Schnorr.challenge]
      rw [hashToField_same hs hf (hm _ (List.mem_map.2 ⟨(sigs[i], msgs[i]), ?_, rfl⟩))]
      rw [List.mem_iff_getElem]
      exact ⟨i, by simp [hi, hj], by simp⟩
    · have h2 : (idx msgs i : Res SignatureError (List UInt8)) = .panic := by simp [idx, hj]
      rw [h2]
      cases (idx sigs i : Res SignatureError (Schnorr.Sig r G)) <;> rfl
  · have h1 : (idx sigs i : Res SignatureError (Schnorr.Sig r G)) = .panic := by simp [idx, hi]
    rw [h1]
    rfl

theorem shareRest_rng (m : Mode) (nd : Node r G1 G2) (poly : List (ZMod r)) (g g' : Rng r) :
    shareRest m nd poly g = (shareRest m nd poly g' >>= fun x => .ok (x.1, g)) := by
  simp only [shareRest]
  cases rangeToPred m nd.aggregator.config.numParticipants with
  | ok js =>
    simp only [Res.bind_ok']
    generalize collect (ε := PVSSError) _ js = c1
    cases c1 <;> simp only [Res.bind_ok', Res.bind_err', Res.bind_panic', Res.bind_diverge']
    generalize collect (ε := PVSSError) _ js = c2
    cases c2 <;> simp only [Res.bind_ok', Res.bind_err', Res.bind_panic', Res.bind_diverge']
    generalize (idx _ nd.dealer.participant.id : Res PVSSError (ZMod r)) = c3
    cases c3 <;> simp only [Res.bind_ok', Res.bind_err', Res.bind_panic', Res.bind_diverge']
    generalize (idx poly 0 : Res PVSSError (ZMod r)) = c4
    cases c4 <;> rfl
  | err e => rfl
  | panic => rfl
  | diverge => rfl

/-- **C105** (`Node::share`). A dealing draws `t + 2` scalars (the `t + 1` coefficients and one nonce), and takes one challenge
hash, one digest and one signature. -/
theorem C105_deal (S : Suite r G1 G2 K) (m : Mode) (nd : Node r G1 G2) (rng : Rng r) :
    ∃ (q : List UInt8 × List UInt8) (d : List UInt8) (x : List UInt8),
      ∀ S' : Suite r G1 G2 K, Spec.Like S S' [d] → Spec.SameHash S.hash S'.hash [q] →
      S'.ed.keypairOk nd.dealer.skEd.bytes = S.ed.keypairOk nd.dealer.skEd.bytes →
      S'.ed.sign nd.dealer.skEd.bytes x = S.ed.sign nd.dealer.skEd.bytes x →
      ∀ rng' : Rng r, Spec.SameDraws (nd.aggregator.config.degree + 2) rng rng' →
        (nd.share S' m rng').mapOk Prod.fst = (nd.share S m rng).mapOk Prod.fst := by
  have key : ∀ (T : Suite r G1 G2 K) (g : Rng r), nd.share T m g = (polyRand m g nd.aggregator.config.degree >>= fun x =>
      shareRest m nd x.1 g >>= fun y => (Decomp.generate T x.2 nd.aggregator.config y.1.2.p0).unwrap >>= fun z =>
        Signature.new T.ed (z.1.digest T) nd.dealer.skEd >>= fun sig =>
          .ok (⟨nd.dealer.participant.id, y.1.1, ⟨z.1, sig⟩⟩, z.2)) := by
    intro T g
    unfold Node.share
    have h0 : nd.sharePvss m g = (polyRand m g nd.aggregator.config.degree >>= fun x => shareRest m nd x.1 x.2) := rfl
    rw [h0]
    cases polyRand m g nd.aggregator.config.degree with
    | ok x =>
      simp only [Res.bind_ok']
      rw [shareRest_rng m nd x.1 x.2 g]
      cases shareRest m nd x.1 g <;> rfl
    | err e => rfl
    | panic => rfl
    | diverge => rfl
  -- the two streams give the same polynomial
  have hpoly : ∀ rng' : Rng r, Spec.SameDraws (nd.aggregator.config.degree + 2) rng rng' →
      (∃ poly c, c ≤ nd.aggregator.config.degree + 1 ∧
        (polyRand m rng nd.aggregator.config.degree : Res PVSSError _) = .ok (poly, rng.drop c) ∧
        (polyRand m rng' nd.aggregator.config.degree : Res PVSSError _) = .ok (poly, rng'.drop c)) ∨
      ((∀ y, (polyRand m rng nd.aggregator.config.degree : Res PVSSError _) ≠ .ok y) ∧
        (polyRand m rng' nd.aggregator.config.degree : Res PVSSError (List (ZMod r) × Rng r)) =
          polyRand m rng nd.aggregator.config.degree) := by
    intro rng' hr
    unfold polyRand
    cases hc : (polyCount m nd.aggregator.config.degree : Res PVSSError ℕ) with
    | ok cnt =>
      have hcnt : cnt ≤ nd.aggregator.config.degree + 1 := by
        unfold polyCount addU64 at hc
        cases m <;> simp only at hc
        all_goals first
          | (simp only [Res.ok.injEq] at hc; omega)
          | (split at hc <;> simp only [Res.ok.injEq, reduceCtorEq] at hc <;> omega)
      have hl : (List.range cnt).map rng' = (List.range cnt).map rng :=
        List.map_congr_left fun i hi => hr i (by have := List.mem_range.1 hi; omega)
      simp only [Res.bind_ok', hl]
      by_cases hcap : 2 ^ 63 - 1 < cnt * 32
      · right
        simp only [if_pos hcap]
        exact ⟨fun y hy => by simp at hy, trivial⟩
      · left
        simp only [if_neg hcap]
        exact ⟨_, cnt, hcnt, rfl, rfl⟩
    | err e => right; exact ⟨fun y hy => by simp at hy, rfl⟩
    | panic => right; exact ⟨fun y hy => by simp at hy, rfl⟩
    | diverge => right; exact ⟨fun y hy => by simp at hy, rfl⟩
  -- the proof made from the polynomial
  cases hp : (polyRand m rng nd.aggregator.config.degree : Res PVSSError (List (ZMod r) × Rng r)) with
  | ok x =>
    cases hs : shareRest m nd x.1 rng with
    | ok y =>
      let q : List UInt8 × List UInt8 := (padPersona DLK.persona, S.c2.codec.enc nd.aggregator.config.srs.g2 ++
        S.c2.codec.enc (mulRepr nd.aggregator.config.srs.g2 (x.2 0)))
      have hgen : ∀ (S' : Suite r G1 G2 K) (ds : List (List UInt8)) (g : Rng r), Spec.Like S S' ds →
          Spec.SameHash S.hash S'.hash [q] → g 0 = x.2 0 →
          (Decomp.generate S' g nd.aggregator.config y.1.2.p0).mapOk Prod.fst =
            (Decomp.generate S x.2 nd.aggregator.config y.1.2.p0).mapOk Prod.fst := by
        intro S' ds g h hm hg
        simp only [Decomp.generate, DLK.prove, DLK.challenge, hg]
        rw [hashToField_same (H := S.hash) (H' := S'.hash) h.frSize h.frFromRandom
          (by rw [h.c2]; exact hm _ (List.mem_singleton.2 rfl)), h.c2]
        cases (hashToField S.hash _ _ : Res NIZKError (ZMod r)) <;> rfl
      have hdrop : ∀ (rng' : Rng r), Spec.SameDraws (nd.aggregator.config.degree + 2) rng rng' →
          ∃ g : Rng r, (polyRand m rng' nd.aggregator.config.degree : Res PVSSError _) = .ok (x.1, g) ∧ g 0 = x.2 0 ∧
            shareRest m nd x.1 rng' = .ok (y.1, rng') := by
        intro rng' hr
        rcases hpoly rng' hr with ⟨poly, c, hc, h1, h2⟩ | ⟨h1, -⟩
        · rw [hp, Res.ok.injEq] at h1
          subst h1
          refine ⟨rng'.drop c, h2, hr (c + 0) (by omega), ?_⟩
          rw [shareRest_rng m nd _ rng' rng, hs]
          rfl
        · exact absurd hp (h1 _)
      cases hz : Decomp.generate S x.2 nd.aggregator.config y.1.2.p0 with
      | ok z =>
        refine ⟨q, (proofCodec S).enc z.1.proof ++ S.c2.codec.enc z.1.gs, (z.1.digest S).bytes.1,
          fun S' h hm hk hx rng' hr => ?_⟩
        obtain ⟨g, h2, h0, h3⟩ := hdrop rng' hr
        have hz' := hgen S' _ g h hm h0
        rw [hz] at hz'
        have hdig : z.1.digest S' = z.1.digest S := by
          unfold DecompProof.digest proofCodec
          rw [h.c2, h.frC]
          exact congrArg Digest.mk (h.shake _ (List.mem_singleton.2 rfl))
        rw [key, key, hp, h2]
        simp only [Res.bind_ok', hs, h3, hz]
        cases hw : Decomp.generate S' g nd.aggregator.config y.1.2.p0 with
        | ok w =>
          rw [hw] at hz'
          simp only [Res.mapOk, Res.ok.injEq] at hz'
          simp only [Res.unwrap_ok, Res.bind_ok', hz', hdig, Signature.new, hk, hx]
          cases S.ed.keypairOk nd.dealer.skEd.bytes <;> rfl
        | _ => rw [hw] at hz'; simp only [Res.mapOk, reduceCtorEq] at hz'
      | err e =>
        refine ⟨q, [], [], fun S' h hm hk hx rng' hr => ?_⟩
        obtain ⟨g, h2, h0, h3⟩ := hdrop rng' hr
        have hz' := hgen S' _ g h hm h0
        rw [key, key, hp, h2]
        simp only [Res.bind_ok', hs, h3, hz]
        cases hw : Decomp.generate S' g nd.aggregator.config y.1.2.p0 <;> rw [hw, hz] at hz' <;>
          simp only [Res.mapOk, reduceCtorEq] at hz' <;> rfl
      | panic =>
        refine ⟨q, [], [], fun S' h hm hk hx rng' hr => ?_⟩
        obtain ⟨g, h2, h0, h3⟩ := hdrop rng' hr
        have hz' := hgen S' _ g h hm h0
        rw [key, key, hp, h2]
        simp only [Res.bind_ok', hs, h3, hz]
        cases hw : Decomp.generate S' g nd.aggregator.config y.1.2.p0 <;> rw [hw, hz] at hz' <;>
          simp only [Res.mapOk, reduceCtorEq] at hz' <;> rfl
      | diverge =>
        refine ⟨q, [], [], fun S' h hm hk hx rng' hr => ?_⟩
        obtain ⟨g, h2, h0, h3⟩ := hdrop rng' hr
        have hz' := hgen S' _ g h hm h0
        rw [key, key, hp, h2]
        simp only [Res.bind_ok', hs, h3, hz]
        cases hw : Decomp.generate S' g nd.aggregator.config y.1.2.p0 <;> rw [hw, hz] at hz' <;>
          simp only [Res.mapOk, reduceCtorEq] at hz' <;> rfl
    | _ =>
      refine ⟨([], []), [], [], fun S' h hm hk hx rng' hr => ?_⟩
      rcases hpoly rng' hr with ⟨poly, c, hc, h1, h2⟩ | ⟨h1, -⟩
      · rw [hp, Res.ok.injEq] at h1
        subst h1
        rw [key, key, hp, h2]
        simp only [Res.bind_ok']
        rw [shareRest_rng m nd _ rng' rng, hs]
        rfl
      · exact absurd hp (h1 _)
  | _ =>
    refine ⟨([], []), [], [], fun S' h hm hk hx rng' hr => ?_⟩
    rcases hpoly rng' hr with ⟨poly, c, hc, h1, h2⟩ | ⟨-, h1⟩
    · rw [hp] at h1; cases h1
    · rw [key, key, h1, hp]; rfl

/-! ### The work is needed -/

/-- `S` with another value of the pairing at one point. -/
def Spec.withPair (S : Suite r G1 G2 K) (p : G1 × G2) (v : K) : Suite r G1 G2 K :=
  { S with pair := fun P Q => if (P, Q) = p then v else S.pair P Q }

/-- `S` with signature checks that refuse one (key, message, signature). -/
def Spec.withoutSig (S : Suite r G1 G2 K) (e : Bytes 32 × List UInt8 × Bytes 64) : Suite r G1 G2 K :=
  { S with ed := { S.ed with verifyStrict := fun k m s => if (k, m, s) = e then false else S.ed.verifyStrict k m s } }

theorem prodPairings_withPair (S : Suite r G1 G2 K) {ps : List (G1 × G2)} (hn : ps.Nodup) {p : G1 × G2} (hp : p ∈ ps) {v : K}
    (hv : v ≠ S.pair p.1 p.2) (h : prodPairings S ps = 1) : prodPairings (Spec.withPair S p v) ps ≠ 1 := by
  obtain ⟨l1, l2, rfl⟩ := List.append_of_mem hp
  have hn1 : p ∉ l1 ∧ p ∉ l2 := by
    rw [List.nodup_middle, List.nodup_cons, List.mem_append] at hn
    exact not_or.1 hn.1
  have hmap : ∀ l : List (G1 × G2), p ∉ l → l.map (fun q => (Spec.withPair S p v).pair q.1 q.2) = l.map fun q => S.pair q.1 q.2 := by
    intro l hl
    refine List.map_congr_left fun q hq => ?_
    have : q ≠ p := fun e => hl (e ▸ hq)
    simp [Spec.withPair, this]
  intro h'
  unfold prodPairings at h h'
  rw [List.map_append, List.map_cons, hmap l1 hn1.1, hmap l2 hn1.2, List.prod_append, List.prod_cons] at h'
  rw [List.map_append, List.map_cons, List.prod_append, List.prod_cons, mul_left_comm] at h
  have hpv : (Spec.withPair S p v).pair p.1 p.2 = v := by simp [Spec.withPair]
  rw [hpv, mul_left_comm] at h'
  refine hv ?_
  generalize (l1.map fun q => S.pair q.1 q.2).prod * (l2.map fun q => S.pair q.1 q.2).prod = rest at h h'
  calc v = v * (S.pair p.1 p.2 * rest) := by rw [h, mul_one]
    _ = S.pair p.1 p.2 * (v * rest) := by rw [mul_left_comm]
    _ = S.pair p.1 p.2 := by rw [h', mul_one]

section Needed
variable [Module (ZMod r) G1] [Module (ZMod r) G2]

/-- **C105** (`receive_aggregated_share`, all of it is needed). For an accepted transcript whose commitments differ from each other
and from the generator there are `n + 1` different pairings of which every single one decides: with another value there, the
transcript is refused.  So does every contribution's signature check. -/
theorem C105_aggregated_needed (S : Suite r G1 G2 K) (m : Mode) (a : Aggregator r G1 G2) (ag : AggShare r G1 G2)
    (rng g : Rng r) (hg : a.aggregationVerify S m rng ag = .ok g) :
    ((ag.core.comms ++ [a.config.srs.g2]).Nodup →
      ∃ ps : List (G1 × G2), ps.Nodup ∧ ps.length = a.config.numParticipants + 1 ∧ ∀ p ∈ ps, ∀ v, v ≠ S.pair p.1 p.2 →
        ∀ g', a.aggregationVerify (Spec.withPair S p v) m rng ag ≠ .ok g') ∧
    ∀ i x w, (i, (x, w)) ∈ ag.contributions.entries → ∃ q, a.participants.get i = some q ∧ ∀ g',
      a.aggregationVerify (Spec.withoutSig S (q.pkEd.bytes, (x.decompProof.digest S).bytes.1, x.signature.flatten)) m rng ag ≠
        .ok g' := by
  unfold Aggregator.aggregationVerify at hg
  simp only at hg
  split at hg
  · simp at hg
  rename_i hl
  push Not at hl
  simp only [Res.bind_eq_ok] at hg
  obtain ⟨g1, h1, x, h2, h3⟩ := hg
  split at h3
  · simp at h3
  rename_i hprod
  rw [not_not] at hprod
  simp only [Res.bind_eq_ok] at h3
  obtain ⟨P, h4, tot, h5, h6⟩ := h3
  -- what acceptance means in a world with the same degree test
  have hacc : ∀ T : Suite r G1 G2 K, (∃ g, a.aggregationVerify T m rng ag = .ok g) →
      prodPairings T (x.2 ++ [(-x.1, a.config.srs.g2)]) = 1 ∧ ∃ tot, loop (a.contribStep T) 0 ag.contributions.entries = .ok tot := by
    rintro T ⟨g, hg⟩
    unfold Aggregator.aggregationVerify at hg
    simp only at hg
    rw [if_neg (by push Not; exact hl), h1, Res.bind_ok', h2, Res.bind_ok'] at hg
    split at hg
    · simp at hg
    · rename_i hp
      simp only [Res.bind_eq_ok] at hg
      obtain ⟨_, _, tot, h7, _⟩ := hg
      exact ⟨not_not.1 hp, tot, h7⟩
  have hdist : (ag.core.comms ++ [a.config.srs.g2]).Nodup → (x.2 ++ [(-x.1, a.config.srs.g2)]).Nodup := by
    intro hnd
    have hkeys : ∀ i, ∃ k : G1, i < a.config.numParticipants → ∃ q, a.participants.get i = some q ∧ q.pkSig = k := by
      intro i
      by_cases hi : i < a.config.numParticipants
      · obtain ⟨q, hq⟩ := pairLoop_ok_keys h2 i hi
        exact ⟨q.pkSig, fun _ => ⟨q, hq, rfl⟩⟩
      · exact ⟨0, fun h => absurd h hi⟩
    choose pk hpk using hkeys
    have hx := pairLoop_eq a ag.core (g1 0) (n := a.config.numParticipants) pk hpk hl.1 hl.2
    rw [h2, Res.ok.injEq] at hx
    refine List.Nodup.of_map Prod.snd ?_
    rw [hx]
    have : ((ag.core.comms.zipIdx.map fun ci => (g1 0 • pk ci.2, ci.1)) ++
        [(-(g1 0 • ag.core.encs.sum), a.config.srs.g2)]).map Prod.snd = ag.core.comms ++ [a.config.srs.g2] := by
      rw [List.map_append, List.map_map]
      congr 1
      exact List.zipIdx_map_fst _ _
    rwa [this]
  refine ⟨fun hnd => ?_, fun i y w hy => ?_⟩
  · refine ⟨x.2 ++ [(-x.1, a.config.srs.g2)], ?_, by simp [pairStep_length _ _ _ _ _ _ h2], fun p hp v hvp g hg => ?_⟩
    · exact hdist hnd
    · exact prodPairings_withPair S (hdist hnd) hp hvp hprod (hacc _ ⟨g, hg⟩).1
  · obtain ⟨hall, -⟩ := (contribLoop_iff S a _ _ _).1 h5
    obtain ⟨q, hq, -⟩ := hall _ hy
    refine ⟨q, hq, fun g hg => ?_⟩
    obtain ⟨tot', h7⟩ := (hacc _ ⟨g, hg⟩).2
    obtain ⟨q', hq', hso⟩ := ((contribLoop_iff _ a _ _ _).1 h7).1 _ hy
    rw [hq, Option.some.injEq] at hq'
    subst hq'
    have hsig := hso.signature
    have hno : (Spec.withoutSig S (q.pkEd.bytes, (y.decompProof.digest S).bytes.1, y.signature.flatten)).ed.verifyStrict
        q.pkEd.bytes (y.decompProof.digest S).bytes.1 y.signature.flatten = false := if_pos rfl
    exact Bool.false_ne_true (hno.symm.trans hsig)

end Needed

/-- Non-vacuity of C105_aggregated_needed: an accepted transcript with four different commitments, and five pairings that all
decide. -/
example (rng : Rng 13) : ∃ (ag : AggShare 13 (ZMod 13) (ZMod 13)) (ps : List (ZMod 13 × ZMod 13)), ps.length = 5 ∧ ∀ p ∈ ps, ∀ v,
    v ≠ (Toy.suite 13).pair p.1 p.2 → ∀ g, Toy.agg.aggregationVerify (Spec.withPair (Toy.suite 13) p v) .checked rng ag ≠ .ok g := by
  obtain ⟨ag, hcore, -, h⟩ := Toy.acceptedAgg
  obtain ⟨g, h⟩ := h rng
  obtain ⟨ps, -, h2, h3⟩ := (C105_aggregated_needed (Toy.suite 13) .checked Toy.agg ag rng g h).1 (by rw [hcore]; decide)
  exact ⟨ag, ps, h2, h3⟩

/-- Non-vacuity of C105_share and C105_aggregated: two different suites that agree where a call looks. -/
example (ds : List (List UInt8)) : Spec.Like (Toy.suite 13) (Spec.withPair (Toy.suite 13) (3, 4) 1) ds ∧
    Spec.SameWorld (Toy.suite 13) (Spec.withPair (Toy.suite 13) (3, 4) 1) [(1, 2), (5, 6)] [([], [])] [] ∧
    (Spec.withPair (Toy.suite 13) (3, 4) 1).pair 3 4 ≠ (Toy.suite 13).pair 3 4 :=
  ⟨⟨rfl, rfl, rfl, rfl, rfl, fun _ _ => rfl⟩, ⟨fun p hp => if_neg fun e => by have e : p = (3, 4) := e; subst e; revert hp; decide, fun _ _ => rfl,
    fun _ _ => ⟨rfl, rfl, rfl⟩⟩, by decide⟩

end Verif
