import Verif.Props.Verify
import Verif.Props.Share
import Verif.Lemmas.History

/-!
# What a share is bound to: C74 – C76

Sessions, dealers and the contribution of an honest dealer to an aggregate.
-/

open Finset Polynomial

namespace Verif

set_option linter.unusedSectionVars false

variable {r : ℕ} [Fact r.Prime] {G1 G2 K : Type}
  [AddCommGroup G1] [DecidableEq G1] [AddCommGroup G2] [DecidableEq G2] [CommMonoid K] [DecidableEq K]
  [Module (ZMod r) G1] [Module (ZMod r) G2]

/-- The concrete suite with a hash that is constantly 1. -/
def Toy.suite1 : Suite 13 (ZMod 13) (ZMod 13) (Multiplicative (ZMod 13)) :=
  { Toy.suite 13 with hash := Toy.constHash 13 1 }

theorem Toy.pairLaws1 : PairLaws Toy.suite1 :=
  ⟨(Toy.pairLaws 13).add_left, (Toy.pairLaws 13).add_right, (Toy.pairLaws 13).zero_left, (Toy.pairLaws 13).zero_right,
    (Toy.pairLaws 13).nondeg⟩

theorem Toy.hashTotal1 : HashTotal Toy.suite1.hash := fun _ _ => ⟨0, rfl⟩

theorem Toy.share1 (rng : Rng 13) (h : ∃ k ≤ 1, rng k ≠ 0) :
    ∃ sh rng', (Toy.node 2).share Toy.suite1 .checked rng = .ok (sh, rng') := by
  obtain ⟨⟨sh, rng'⟩, hx⟩ := (C73 Toy.suite1 Toy.hashTotal1 .checked (Toy.node 2) rng (by decide)).1.2
    ⟨by decide, by decide, by decide, h, by decide⟩
  exact ⟨sh, rng', hx⟩

/-! ### C74: sessions -/

/-- **C74**, as one would like it: a share accepted in one session is not accepted in another, a session being given by its
configuration and participant table. False of the code. -/
def C74_claim (S : Suite r G1 G2 K) (m : Mode) (a a' : Aggregator r G1 G2) : Prop :=
  ¬ (a.config = a'.config ∧ a.participants = a'.participants) → ∀ sh rng rng1 rng' rng1',
    a.shareVerify S m rng sh = .ok rng1 → a'.shareVerify S m rng' sh ≠ .ok rng1'

/-- **C74** (replay). The outcome of `share_verify` depends on the session only through `n`, `t`, `g2` and the sender's own
table entry: the keys of all other parties, `g1` and `g2'` do not matter. -/
theorem C74_replay (S : Suite r G1 G2 K) (m : Mode) (a a' : Aggregator r G1 G2) (rng : Rng r) (sh : PVSSShare r G1 G2)
    (hn : a.config.numParticipants = a'.config.numParticipants) (ht : a.config.degree = a'.config.degree)
    (hg : a.config.srs.g2 = a'.config.srs.g2)
    (hp : a.participants.get sh.participantId = a'.participants.get sh.participantId) :
    a.shareVerify S m rng sh = a'.shareVerify S m rng sh := by
  unfold Aggregator.shareVerify Aggregator.coreVerify SignedProof.verify DecompProof.verify
  simp only [hn, ht, hg, hp]

/-- **C74** (replay of transcripts). The outcome of `aggregation_verify` depends on the session only through `n`, `t`, `g2`
and the participant table. -/
theorem C74_replay_agg (S : Suite r G1 G2 K) (m : Mode) (a a' : Aggregator r G1 G2) (rng : Rng r) (ag : AggShare r G1 G2)
    (hn : a.config.numParticipants = a'.config.numParticipants) (ht : a.config.degree = a'.config.degree)
    (hg : a.config.srs.g2 = a'.config.srs.g2) (hp : a.participants = a'.participants) :
    a.aggregationVerify S m rng ag = a'.aggregationVerify S m rng ag := by
  unfold Aggregator.aggregationVerify Aggregator.contribStep SignedProof.verify DecompProof.verify Aggregator.pairStep
  simp only [hn, ht, hg, hp]

/-- **C74** (threshold). A correct share made for degree `t` is accepted, for every draw of the verifier, by a session of any
larger degree `t' ≤ n - 2`: the degree is not bound either. -/
theorem C74_threshold (S : Suite r G1 G2 K) (hS : PairLaws S) (m : Mode) (cfg : Config G1 G2) (a : Aggregator r G1 G2)
    (sh : PVSSShare r G1 G2) (p : (ZMod r)[X]) (hg : Spec.GoodShare S cfg a.participants sh p)
    (hn : a.config.numParticipants = cfg.numParticipants) (hsrs : a.config.srs.g2 = cfg.srs.g2)
    (ht : cfg.degree ≤ a.config.degree) (ht' : a.config.degree + 2 ≤ a.config.numParticipants)
    (hr : a.config.numParticipants ≤ r) (hcap : a.config.numParticipants < 2 ^ 58) (rng : Rng r) :
    ∃ rng', a.shareVerify S m rng sh = .ok rng' := by
  obtain ⟨h1, ⟨pk, hk, hs⟩, h3, q, hq, hsig⟩ := hg
  refine shareVerify_good S hS m a rng sh p ⟨by rw [hn]; exact h1, ⟨pk, by rw [hn]; exact hk, ?_⟩, by rw [hsrs]; exact h3,
    q, hq, by rw [hsrs]; exact hsig⟩ hr hcap (Or.inl ht')
  rw [hn, hsrs]
  exact ⟨hs.degree.trans ht, hs.encs_length, hs.comms_length, hs.comm, hs.enc⟩

/-- **C74**, the part that holds: a share accepted in two sessions has the same `n` in both, its sender is registered in both
with keys that both verify the signature, and unless `g2` is the same the two challenges are a collision of the hash: two
different inputs with the same output. Missing: the degree, the other parties, `g1`, `g2'` and any session name
(`C74_replay`, `C74_threshold`). -/
theorem C74_partial (S : Suite r G1 G2 K) (hS : PairLaws S) (hC : S.c2.codec.Lawful) (m : Mode) (a a' : Aggregator r G1 G2)
    (rng rng' rng1 rng1' : Rng r) (sh : PVSSShare r G1 G2) (h : a.shareVerify S m rng sh = .ok rng1)
    (h' : a'.shareVerify S m rng' sh = .ok rng1') :
    a.config.numParticipants = a'.config.numParticipants ∧
    (∃ q q', a.participants.get sh.participantId = some q ∧ a'.participants.get sh.participantId = some q' ∧
      Spec.SignedOk S a.config.srs.g2 q.pkEd sh.signedProof ∧ Spec.SignedOk S a'.config.srs.g2 q'.pkEd sh.signedProof) ∧
    (a.config.srs.g2 ≠ a'.config.srs.g2 →
      let X := sh.signedProof.decompProof.proof.1
      let x := S.c2.codec.enc a.config.srs.g2 ++ S.c2.codec.enc X
      let y := S.c2.codec.enc a'.config.srs.g2 ++ S.c2.codec.enc X
      x ≠ y ∧ (hashToField S.hash (ascii "DLKNIZK") x : Res NIZKError _) = hashToField S.hash (ascii "DLKNIZK") y) := by
  obtain ⟨q, h1, h2, h3, h4, h5, h6, h7, h8⟩ := (shareVerify_iff S hS m a rng rng1 sh).1 h
  obtain ⟨q', h1', h2', h3', h4', h5', h6', h7', h8'⟩ := (shareVerify_iff S hS m a' rng' rng1' sh).1 h'
  refine ⟨h3.symm.trans h3', ⟨q, q', h1, h1', h8, h8'⟩, fun hne => ⟨fun he => hne ?_, h8.challenge.trans h8'.challenge.symm⟩⟩
  exact (Codec.Lawful.append_inj hC he).1

/-- The session of the concrete configuration with `g1`, `g2'` and all parties except the sender 2 replaced. -/
def Toy.agg' : Aggregator 13 (ZMod 13) (ZMod 13) :=
  Aggregator.new ⟨⟨7, 1, 9⟩, 1, 4⟩ (BMap.ofList ((List.range 4).map fun i =>
    (i, if i = 2 then Toy.participant 2 (Toy.sk 2) else Toy.participant (i + 9) (Toy.sk (i + 1)))))

/-- **C74 negated** with a concrete witness: the share of party 2 is accepted in a session with other generators `g1`, `g2'`
and other parties 0, 1, 3. -/
theorem C74_false : ¬ C74_claim (Toy.suite 13) .checked Toy.agg Toy.agg' := by
  intro h
  obtain ⟨sh, -, hid, -, hacc⟩ := Toy.accepted52
  obtain ⟨rng1, h1⟩ := hacc Toy.rng52
  refine h ?_ sh Toy.rng52 rng1 Toy.rng52 rng1 h1 ?_
  · rintro ⟨h, -⟩
    exact absurd h (by decide)
  · rw [← h1]
    refine (C74_replay (Toy.suite 13) .checked Toy.agg Toy.agg' Toy.rng52 sh rfl rfl rfl ?_).symm
    rw [hid]
    rfl

/-- Non-vacuity of C74_threshold and C74_partial: the concrete share for degree 1 is accepted at degree 2. -/
example (rng : Rng 13) : ∃ sh rng1 rng1', Toy.agg.shareVerify (Toy.suite 13) .checked rng sh = .ok rng1 ∧
    (Aggregator.new ⟨⟨1, 1, 2⟩, 2, 4⟩ Toy.parties : Aggregator 13 (ZMod 13) (ZMod 13)).shareVerify (Toy.suite 13) .checked rng
      sh = .ok rng1' := by
  obtain ⟨sh, -, -, ⟨p, hg⟩, hacc⟩ := Toy.accepted52
  obtain ⟨rng1, h1⟩ := hacc rng
  obtain ⟨rng1', h2⟩ := C74_threshold (Toy.suite 13) (Toy.pairLaws 13) .checked Toy.cfg
    (Aggregator.new ⟨⟨1, 1, 2⟩, 2, 4⟩ Toy.parties) sh p hg rfl rfl (by decide) (by decide) (by decide) (by decide) rng
  exact ⟨sh, rng1, rng1', h1, h2⟩

/-! ### C75: dealers -/

/-- **C75**, as one would like it: the content of an accepted share (vectors and decomposition proof) is not accepted as the
share of another dealer. False of the code. -/
def C75_claim (S : Suite r G1 G2 K) (m : Mode) (a : Aggregator r G1 G2) : Prop :=
  ∀ sh sh' rng rng1 rng' rng1', a.shareVerify S m rng sh = .ok rng1 → sh'.participantId ≠ sh.participantId →
    sh'.core = sh.core → sh'.signedProof.decompProof = sh.signedProof.decompProof →
    a.shareVerify S m rng' sh' ≠ .ok rng1'

/-- A decomposition proof satisfying the equation, signed with the key of a seed, is valid for the public half. -/
theorem signedOk_sign (S : Suite r G1 G2 K) (hE : EdLaws S.ed) (g2 : G2) (d : DecompProof r G2) (seed : Bytes 32)
    (h1 : (hashToField S.hash (ascii "DLKNIZK") (S.c2.codec.enc g2 ++ S.c2.codec.enc d.proof.1) : Res NIZKError _) =
      .ok d.proof.2.1)
    (h2 : d.proof.2.2 • g2 + d.proof.2.1 • d.gs = d.proof.1) :
    ∃ sig, (Signature.new S.ed (d.digest S) ⟨Bytes.append32 seed (S.ed.derivePk seed)⟩ : Res PVSSError _) = .ok sig ∧
      Spec.SignedOk S g2 ⟨S.ed.derivePk seed⟩ ⟨d, sig⟩ := by
  obtain ⟨sig, hs1, hs2, -⟩ := C58_sign (ε := PVSSError) S.ed hE seed (d.digest S)
  unfold generateKeypair at hs1 hs2
  obtain ⟨e3, e4, e5⟩ := (sigVerify_iff _ _ _ _).1 hs2
  exact ⟨sig, hs1, h1, h2, e3, e4, e5⟩

/-- **C75** (copying). Every registered party `B` that knows its own signing key can take the vectors and the decomposition
proof out of a correct share of somebody else, sign the proof and have it accepted as its own share, for every draw of the
verifier. It need not know the shared polynomial. -/
theorem C75_copy (S : Suite r G1 G2 K) (hS : PairLaws S) (hE : EdLaws S.ed) (m : Mode) (a : Aggregator r G1 G2)
    (sh : PVSSShare r G1 G2) (p : (ZMod r)[X]) (hg : Spec.GoodShare S a.config a.participants sh p)
    (B : ℕ) (seed : Bytes 32) (q : Participant G1) (hB : B < a.config.numParticipants)
    (hq : a.participants.get B = some q) (hkey : q.pkEd = ⟨S.ed.derivePk seed⟩)
    (hn : a.config.numParticipants ≤ r) (hcap : a.config.numParticipants < 2 ^ 58)
    (ht : a.config.degree + 2 ≤ a.config.numParticipants) :
    ∃ sig, (Signature.new S.ed (sh.signedProof.decompProof.digest S) ⟨Bytes.append32 seed (S.ed.derivePk seed)⟩ :
        Res PVSSError _) = .ok sig ∧
      ∀ rng, ∃ rng', a.shareVerify S m rng ⟨B, sh.core, ⟨sh.signedProof.decompProof, sig⟩⟩ = .ok rng' := by
  obtain ⟨h1, h2, h3, q', hq', hsig⟩ := hg
  obtain ⟨sig, hs, hok⟩ := signedOk_sign S hE a.config.srs.g2 sh.signedProof.decompProof seed hsig.challenge hsig.equation
  refine ⟨sig, hs, fun rng => shareVerify_good S hS m a rng _ p ⟨hB, h2, h3, q, hq, ?_⟩ hn hcap (Or.inl ht)⟩
  rw [hkey]
  exact hok

/-- The vectors of `core` moved to the polynomial `α p + β`, computed from public values only. -/
def Spec.relatedCore (α β : ZMod r) (g2 : G2) (pk : ℕ → G1) (core : PVSSCore G1 G2) : PVSSCore G1 G2 :=
  ⟨core.encs.mapIdx fun i e => α • e + β • pk i, core.comms.map fun v => α • v + β • g2⟩

theorem shares_related {g2 : G2} {n t : ℕ} {pk : ℕ → G1} {core : PVSSCore G1 G2} {p : (ZMod r)[X]}
    (h : Spec.Shares g2 n t pk core p) (α β : ZMod r) :
    Spec.Shares g2 n t pk (Spec.relatedCore α β g2 pk core) (C α * p + C β) := by
  refine ⟨?_, by simp [Spec.relatedCore, h.encs_length], by simp [Spec.relatedCore, h.comms_length], fun i hi => ?_,
    fun i hi => ?_⟩
  · refine (natDegree_add_le _ _).trans (max_le ((natDegree_C_mul_le _ _).trans h.degree) (by simp))
  · simp only [Spec.relatedCore, List.length_map] at hi
    simp only [Spec.relatedCore, List.getElem_map, h.comm i hi, eval_add, eval_mul, eval_C]
    module
  · simp only [Spec.relatedCore, List.length_mapIdx] at hi
    simp only [Spec.relatedCore, List.getElem_mapIdx, h.enc i hi, eval_add, eval_mul, eval_C]
    module

/-- **C75** (related secrets). More generally, for any scalars `b` and `z`, party `B` can publish a fully correct share of the
polynomial `α p + β` with `α = b / c` and `β = - z / c`, where `c` is the hash of `g2` and the commitment `b • gs`: the
decomposition proof `(b • gs, c, z)` is computed from the victim's `gs` without knowing `p`, because the statement is not
hashed (C38). All parts of the share are given by public values. -/
theorem C75_related (S : Suite r G1 G2 K) (hS : PairLaws S) (hE : EdLaws S.ed) (m : Mode) (a : Aggregator r G1 G2)
    (sh : PVSSShare r G1 G2) (p : (ZMod r)[X]) (hg : Spec.GoodShare S a.config a.participants sh p)
    (pk : ℕ → G1) (hpk : Spec.KeyTable a.participants a.config.numParticipants pk)
    (B : ℕ) (seed : Bytes 32) (q : Participant G1) (hB : B < a.config.numParticipants)
    (hq : a.participants.get B = some q) (hkey : q.pkEd = ⟨S.ed.derivePk seed⟩) (b z c : ZMod r) (hc0 : c ≠ 0)
    (hc : (hashToField S.hash (ascii "DLKNIZK") (S.c2.codec.enc a.config.srs.g2 ++
      S.c2.codec.enc (b • sh.signedProof.decompProof.gs)) : Res NIZKError _) = .ok c)
    (hn : a.config.numParticipants ≤ r) (hcap : a.config.numParticipants < 2 ^ 58)
    (ht : a.config.degree + 2 ≤ a.config.numParticipants) :
    let gs := sh.signedProof.decompProof.gs
    let g2 := a.config.srs.g2
    let d : DecompProof r G2 := ⟨(b • gs, c, z), (b / c) • gs + (- z / c) • g2⟩
    ∃ sig, (Signature.new S.ed (d.digest S) ⟨Bytes.append32 seed (S.ed.derivePk seed)⟩ : Res PVSSError _) = .ok sig ∧
      let sh' : PVSSShare r G1 G2 := ⟨B, Spec.relatedCore (b / c) (- z / c) g2 pk sh.core, ⟨d, sig⟩⟩
      Spec.GoodShare S a.config a.participants sh' (C (b / c) * p + C (- z / c)) ∧
      ∀ rng, ∃ rng', a.shareVerify S m rng sh' = .ok rng' := by
  intro gs g2 d
  obtain ⟨h1, ⟨pk', hk', hs'⟩, h3, q', hq', hsig⟩ := hg
  have hs := shares_congr hs' (keyTable_unique hk' hpk)
  obtain ⟨sig, hs1, hok⟩ := signedOk_sign S hE g2 d seed hc (by
    simp only [d, smul_add, smul_smul]
    rw [mul_div_cancel₀ _ hc0, mul_div_cancel₀ _ hc0]
    module)
  have hgood : Spec.GoodShare S a.config a.participants
      ⟨B, Spec.relatedCore (b / c) (- z / c) g2 pk sh.core, ⟨d, sig⟩⟩ (C (b / c) * p + C (- z / c)) := by
    refine ⟨hB, ⟨pk, hpk, shares_related hs _ _⟩, ?_, q, hq, by rw [hkey]; exact hok⟩
    simp only [d, gs, h3, eval_add, eval_mul, eval_C]
    module
  exact ⟨sig, hs1, hgood, fun rng => shareVerify_good S hS m a rng _ _ hgood hn hcap (Or.inl ht)⟩

/-- **C75 negated** with a concrete witness: party 3 has the share of party 2 accepted as its own. -/
theorem C75_false : ¬ C75_claim (Toy.suite 13) .checked Toy.agg := by
  intro h
  obtain ⟨sh, -, hid, ⟨p, hg⟩, hacc⟩ := Toy.accepted52
  obtain ⟨rng1, h1⟩ := hacc Toy.rng52
  obtain ⟨sig, -, h2⟩ := C75_copy (Toy.suite 13) (Toy.pairLaws 13) Toy.edLaws .checked Toy.agg sh p hg 3 (Toy.pad32 [3])
    (Toy.participant 3 (Toy.sk 3)) (by decide) rfl rfl (by decide) (by decide) (by decide)
  obtain ⟨rng2, h2⟩ := h2 Toy.rng52
  exact h sh ⟨3, sh.core, ⟨sh.signedProof.decompProof, sig⟩⟩ _ _ _ _ h1 (by rw [hid]; exact (by decide : (3 : ℕ) ≠ 2)) rfl rfl h2

/-- **C75**, the part that holds: a share accepted for another dealer carries a signature of the digest of the decomposition
proof that verifies under that dealer's registered key; and the very same signed proof is accepted for two dealers only if
one EdDSA signature verifies under both their keys. Missing: that the dealer knows the secret (`C75_copy`, `C75_related`). -/
theorem C75_partial (S : Suite r G1 G2 K) (hS : PairLaws S) (m : Mode) (a : Aggregator r G1 G2)
    (rng rng' rng1 rng1' : Rng r) (sh sh' : PVSSShare r G1 G2) (h : a.shareVerify S m rng sh = .ok rng1)
    (h' : a.shareVerify S m rng' sh' = .ok rng1') (hd : sh'.signedProof.decompProof = sh.signedProof.decompProof) :
    ∃ q q', a.participants.get sh.participantId = some q ∧ a.participants.get sh'.participantId = some q' ∧
      let d := sh.signedProof.decompProof
      let msg := (S.shake (S.c2.codec.enc d.proof.1 ++ (S.frC.enc d.proof.2.1 ++ S.frC.enc d.proof.2.2) ++
        S.c2.codec.enc d.gs)).1
      let flat := fun s : Signature => Bytes.append32 s.part1 s.part2
      S.ed.verifyStrict q.pkEd.bytes msg (flat sh.signedProof.signature) = true ∧
      S.ed.verifyStrict q'.pkEd.bytes msg (flat sh'.signedProof.signature) = true := by
  obtain ⟨q, h1, -, -, -, -, -, -, h8⟩ := (shareVerify_iff S hS m a rng rng1 sh).1 h
  obtain ⟨q', h1', -, -, -, -, -, -, h8'⟩ := (shareVerify_iff S hS m a rng' rng1' sh').1 h'
  refine ⟨q, q', h1, h1', h8.signature, ?_⟩
  have := h8'.signature
  rw [hd] at this
  exact this

/-- Non-vacuity of C75_related: hypotheses met by the concrete share with `b = 2`, `z = 3` (the hash never gives zero here). -/
example : ∃ sh p c, Spec.GoodShare (Toy.suite1) Toy.cfg Toy.parties sh p ∧ c ≠ 0 ∧
    (hashToField Toy.suite1.hash (ascii "DLKNIZK") (Toy.suite1.c2.codec.enc Toy.cfg.srs.g2 ++
      Toy.suite1.c2.codec.enc ((2 : ZMod 13) • sh.signedProof.decompProof.gs)) : Res NIZKError _) = .ok c := by
  obtain ⟨sh, rng', h⟩ := Toy.share1 Toy.rng52 (by decide)
  obtain ⟨-, p, hg⟩ := share_good Toy.suite1 Toy.edLaws .checked (Toy.node 2) (Toy.goodDealer 2 (by decide)) _ _ sh h
  exact ⟨sh, p, 1, hg, by decide, constHash_eq 1 _ _ dlk_persona_length⟩

/-! ### C76: the contribution of an honest dealer -/

/-- **C76**, as one would like it: whatever the other parties do after having seen the share of an honest dealer, a transcript
that is accepted and lists the dealer's signed proof with a non-zero weight does not have a predetermined secret. (`adv` maps
the honest share to the transcript; the secret is given as the point `f(0) • g2` the commitments interpolate to.) False of the
code. -/
def C76_claim (S : Suite r G1 G2 K) (m : Mode) (nd : Node r G1 G2) : Prop :=
  ∀ adv : PVSSShare r G1 G2 → AggShare r G1 G2,
    (∀ rng sh rng', nd.share S m rng = .ok (sh, rng') →
      (∀ rngV, ∃ rngV', nd.aggregator.aggregationVerify S m rngV (adv sh) = .ok rngV') ∧
      ∃ w, w ≠ 0 ∧ (adv sh).contributions.get nd.dealer.participant.id = some (sh.signedProof, w)) →
    ¬ ∃ P, ∀ rng sh rng', nd.share S m rng = .ok (sh, rng') →
      Spec.InterpolatesTo r nd.aggregator.config.degree (adv sh).core.comms P

/-- The sharing of the constant polynomial `s`. -/
def Spec.constCore (s : ZMod r) (g2 : G2) (pk : ℕ → G1) (n : ℕ) : PVSSCore G1 G2 :=
  ⟨(List.range n).map fun i => s • pk i, List.replicate n (s • g2)⟩

theorem shares_const (s : ZMod r) (g2 : G2) (pk : ℕ → G1) (n t : ℕ) :
    Spec.Shares g2 n t pk (Spec.constCore s g2 pk n) (C s) := by
  refine ⟨by simp, by simp [Spec.constCore], by simp [Spec.constCore], fun i hi => ?_, fun i hi => ?_⟩
  · simp [Spec.constCore]
  · simp [Spec.constCore]

theorem weightedGs_affine (gs g2 : G2) (α β : ℕ → ZMod r) (c : BMap (SignedProof r G2 × UInt64))
    (h : ∀ i x w, c.get i = some (x, w) → x.decompProof.gs = α i • gs + β i • g2) :
    Spec.weightedGs c = (c.entries.map fun e => ((e.2.2.toNat : ℕ) : ZMod r) * α e.1).sum • gs +
      (c.entries.map fun e => ((e.2.2.toNat : ℕ) : ZMod r) * β e.1).sum • g2 := by
  unfold Spec.weightedGs
  have h' : ∀ e ∈ c.entries, e.2.1.decompProof.gs = α e.1 • gs + β e.1 • g2 := by
    rintro ⟨i, x, w⟩ he
    exact h i x w ((BMap.mem_entries c).1 he)
  generalize c.entries = l at h'
  induction l with
  | nil => simp
  | cons e l ih =>
    simp only [List.map_cons, List.sum_cons]
    rw [ih fun e he => h' e (List.mem_cons_of_mem _ he), h' e (List.mem_cons_self ..)]
    module

/-- **C76** (cancelling). Let all listed contributors have valid signed proofs with `gs_i = α_i gs + β_i g2` relative to the
`gs` of an honest dealer (for whom `α = 1`, `β = 0`; for the others such proofs with any `β` are supplied by C75_related), and
let the 64-bit weights satisfy `∑ w_i α_i = 0` in the scalar field. Then the constant sharing of `∑ w_i β_i`, which all the
others know, is accepted with these contributions. -/
theorem C76_cancel (S : Suite r G1 G2 K) (hS : PairLaws S) (m : Mode) (a : Aggregator r G1 G2) (gs : G2)
    (α β : ℕ → ZMod r) (pk : ℕ → G1) (hpk : Spec.KeyTable a.participants a.config.numParticipants pk)
    (c : BMap (SignedProof r G2 × UInt64))
    (hc : ∀ i x w, c.get i = some (x, w) → x.decompProof.gs = α i • gs + β i • a.config.srs.g2 ∧
      ∃ q, a.participants.get i = some q ∧ Spec.SignedOk S a.config.srs.g2 q.pkEd x)
    (h0 : (c.entries.map fun e => ((e.2.2.toNat : ℕ) : ZMod r) * α e.1).sum = 0)
    (hn : a.config.numParticipants ≤ r) (hcap : a.config.numParticipants < 2 ^ 58)
    (ht : a.config.degree + 2 ≤ a.config.numParticipants) (rng : Rng r) :
    let s := (c.entries.map fun e => ((e.2.2.toNat : ℕ) : ZMod r) * β e.1).sum
    let ag : AggShare r G1 G2 := ⟨a.config.numParticipants, a.config.degree,
      Spec.constCore s a.config.srs.g2 pk a.config.numParticipants, c⟩
    (∃ rng', a.aggregationVerify S m rng ag = .ok rng') ∧
      Spec.InterpolatesTo r a.config.degree ag.core.comms (s • a.config.srs.g2) := by
  intro s ag
  have hs := shares_const s a.config.srs.g2 pk a.config.numParticipants a.config.degree
  refine ⟨aggregationVerify_good S hS m a rng ag (C s) pk hpk hs ?_ (fun i x w h => (hc i x w h).2) hn hcap (Or.inl ht), ?_⟩
  · show Spec.weightedGs c = _
    rw [weightedGs_affine gs a.config.srs.g2 α β c (fun i x w h => (hc i x w h).1), h0, zero_smul, zero_add, eval_C]
  · have := interpolatesTo_of_shares hs
    rwa [eval_C] at this

/-- **C76 negated** with a concrete witness: whatever party 2 draws, party 3 answers its share with a transcript that lists
both with weight one, is always accepted and has the secret zero. -/
theorem C76_false : ¬ C76_claim Toy.suite1 .checked (Toy.node 2) := by
  intro h
  have hsig : ∀ gs : ZMod 13, ∃ sig, Spec.SignedOk Toy.suite1 1 ⟨Toy.suite1.ed.derivePk (Toy.pad32 [3])⟩
      ⟨⟨(-gs, 1, 0), -gs⟩, sig⟩ := by
    intro gs
    obtain ⟨sig, -, h⟩ := signedOk_sign Toy.suite1 Toy.edLaws (1 : ZMod 13) ⟨(-gs, 1, 0), -gs⟩ (Toy.pad32 [3])
      (constHash_eq 1 _ _ dlk_persona_length) (by simp)
    exact ⟨sig, h⟩
  choose sig hsig using hsig
  have hk : Spec.KeyTable Toy.parties 4 Toy.sk := by
    intro i hi
    match i, hi with
    | 0, _ => exact ⟨_, rfl, rfl⟩
    | 1, _ => exact ⟨_, rfl, rfl⟩
    | 2, _ => exact ⟨_, rfl, rfl⟩
    | 3, _ => exact ⟨_, rfl, rfl⟩
  let contr : PVSSShare 13 (ZMod 13) (ZMod 13) → BMap (SignedProof 13 (ZMod 13) × UInt64) := fun sh =>
    BMap.ofList [(2, (sh.signedProof, 1)), (3, (⟨⟨(-sh.signedProof.decompProof.gs, 1, 0), -sh.signedProof.decompProof.gs⟩,
      sig sh.signedProof.decompProof.gs⟩, 1))]
  have hent : ∀ sh, (contr sh).entries = [(2, (sh.signedProof, 1)), (3, (⟨⟨(-sh.signedProof.decompProof.gs, 1, 0),
      -sh.signedProof.decompProof.gs⟩, sig sh.signedProof.decompProof.gs⟩, 1))] := fun sh => rfl
  have hacc := fun (rng : Rng 13) sh rng' (hsh : (Toy.node 2).share Toy.suite1 .checked rng = .ok (sh, rng')) (rngV : Rng 13) =>
      C76_cancel Toy.suite1 Toy.pairLaws1 .checked (Toy.node 2).aggregator sh.signedProof.decompProof.gs
      (fun i => if i = 2 then 1 else -1) (fun _ => 0) Toy.sk hk (contr sh) (by
        obtain ⟨hid, p, hg⟩ := share_good Toy.suite1 Toy.edLaws .checked (Toy.node 2) (Toy.goodDealer 2 (by decide))
          rng rng' sh hsh
        intro i x w hx
        have hm := (BMap.mem_entries _).2 hx
        rw [hent] at hm
        simp only [List.mem_cons, Prod.mk.injEq, List.not_mem_nil, or_false] at hm
        rcases hm with ⟨rfl, rfl, -⟩ | ⟨rfl, rfl, -⟩
        · obtain ⟨q, hq, hok⟩ := hg.signed
          refine ⟨by simp, q, ?_, hok⟩
          rw [hid] at hq
          exact hq
        · exact ⟨by simp, Toy.participant 3 (Toy.sk 3), rfl, hsig _⟩) (by rw [hent]; simp) (by decide) (by decide) (by decide) rngV
  refine h (fun sh => ⟨4, 1, Spec.constCore (0 : ZMod 13) 1 Toy.sk 4, contr sh⟩) (fun rng sh rng' hsh => ⟨fun rngV => ?_, 1, by decide, rfl⟩)
    ⟨0, fun rng sh rng' hsh => ?_⟩
  · have := (hacc rng sh rng' hsh rngV).1
    rw [hent] at this
    simp only [mul_zero, List.map_cons, List.map_nil, List.sum_cons, List.sum_nil, add_zero] at this
    exact this
  · have := (hacc rng sh rng' hsh rng).2
    rw [hent] at this
    simp only [mul_zero, List.map_cons, List.map_nil, List.sum_cons, List.sum_nil, add_zero, zero_smul] at this
    exact this

theorem card_first (t : ℕ) (v : ZMod r) :
    (univ.filter fun c : Fin (t + 1) → ZMod r => c 0 = v).card = r ^ t := by
  have : (univ : Finset (Fin t → ZMod r)).card = r ^ t := by
    rw [card_univ, Fintype.card_fun, ZMod.card, Fintype.card_fin]
  rw [← this]
  refine card_nbij' (fun c => Fin.tail c) (fun c => Fin.cons v c) ?_ ?_ ?_ ?_
  · intro c _; simp
  · intro c _; simp
  · intro c hc
    have : c 0 = v := by simpa using hc
    simp only
    rw [← this]
    exact Fin.cons_self_tail c
  · intro c _; simp

theorem card_first_ne_zero (t : ℕ) (v : ZMod r) :
    (v ≠ 0 → (univ.filter fun c : Fin (t + 1) → ZMod r => c ≠ 0 ∧ c 0 = v).card = r ^ t) ∧
    (v = 0 → (univ.filter fun c : Fin (t + 1) → ZMod r => c ≠ 0 ∧ c 0 = v).card + 1 = r ^ t) := by
  constructor
  · intro hv
    rw [← card_first t v]
    congr 1
    refine filter_congr fun c _ => ⟨fun h => h.2, fun h => ⟨?_, h⟩⟩
    rintro rfl
    exact hv h.symm
  · rintro rfl
    have hmem : (0 : Fin (t + 1) → ZMod r) ∈ univ.filter fun c : Fin (t + 1) → ZMod r => c 0 = 0 := by simp
    rw [← card_first t 0, ← card_erase_add_one hmem]
    congr 2
    ext c
    simp

open Classical in
/-- **C76**, the part that holds: when the rest of the transcript is fixed before the honest dealer draws its coefficients
(the aggregator holds a sharing of some `q`, the dealer has not contributed yet), the secret after receiving the dealer's
share is uniform: each value `s` other than `q(0)` is reached by exactly `r^t` of the `r^(t+1)` draws, and `q(0)` by one fewer
(the all-zero draw, on which dealing panics). Missing: contributions that depend on the honest share (`C76_cancel`). -/
theorem C76_partial (S : Suite r G1 G2 K) (hS : PairLaws S) (hH : HashTotal S.hash) (hE : EdLaws S.ed) (m : Mode)
    (nd : Node r G1 G2) (hd : Spec.GoodDealer S.ed nd) (a : Aggregator r G1 G2) (hcfg : a.config = nd.aggregator.config)
    (hps : a.participants = nd.aggregator.participants) (pk : ℕ → G1)
    (hpk : Spec.KeyTable a.participants a.config.numParticipants pk) (q : (ZMod r)[X])
    (htx : Spec.Shares a.config.srs.g2 a.config.numParticipants a.config.degree pk a.tx.core q)
    (htxd : a.tx.degree = a.config.degree) (htxn : a.tx.numParticipants = a.config.numParticipants)
    (hfresh : a.tx.contributions.get nd.dealer.participant.id = none)
    (hid : nd.dealer.participant.id < a.config.numParticipants) (hg2 : a.config.srs.g2 ≠ 0)
    (hn : a.config.numParticipants ≤ r) (hcap : a.config.numParticipants < 2 ^ 58)
    (ht : a.config.degree + 2 ≤ a.config.numParticipants) (rngV : Rng r) (tail : ℕ → ZMod r) (s : ZMod r) :
    let N := (univ.filter fun c : Fin (nd.aggregator.config.degree + 1) → ZMod r =>
      ∃ sh rng' a', nd.share S m (Spec.withPrefix c tail) = .ok (sh, rng') ∧ a.receiveShare S m rngV sh = (.ok (), a') ∧
        Spec.InterpolatesTo r a.config.degree a'.tx.core.comms (s • a.config.srs.g2)).card
    (s ≠ q.eval 0 → N = r ^ a.config.degree) ∧ (s = q.eval 0 → N + 1 = r ^ a.config.degree) := by
  intro N
  have hmain : ∀ c : Fin (nd.aggregator.config.degree + 1) → ZMod r,
      (∃ sh rng' a', nd.share S m (Spec.withPrefix c tail) = .ok (sh, rng') ∧ a.receiveShare S m rngV sh = (.ok (), a') ∧
        Spec.InterpolatesTo r a.config.degree a'.tx.core.comms (s • a.config.srs.g2)) ↔ c ≠ 0 ∧ c 0 = s - q.eval 0 := by
    intro c
    have hwp : ∀ k (hk : k < nd.aggregator.config.degree + 1), Spec.withPrefix c tail k = c ⟨k, hk⟩ := by
      intro k hk
      rw [Spec.withPrefix, dif_pos hk]
    have hz : (∃ k ≤ nd.aggregator.config.degree, Spec.withPrefix c tail k ≠ 0) ↔ c ≠ 0 := by
      rw [Function.ne_iff]
      constructor
      · rintro ⟨k, hk, h⟩
        exact ⟨⟨k, by omega⟩, by rwa [hwp k (by omega)] at h⟩
      · rintro ⟨k, h⟩
        exact ⟨k, by have := k.2; omega, by rw [hwp k k.2]; exact h⟩
    have hcap' : nd.aggregator.config.degree + 1 < 2 ^ 58 := by rw [← hcfg]; omega
    -- what a produced share leads to
    have key : ∀ sh rng', nd.share S m (Spec.withPrefix c tail) = .ok (sh, rng') →
        ∃ a', a.receiveShare S m rngV sh = (.ok (), a') ∧
          Spec.InterpolatesTo r a.config.degree a'.tx.core.comms ((q.eval 0 + c 0) • a.config.srs.g2) := by
      intro sh rng' hsh
      obtain ⟨hid', p', hg⟩ := share_good S hE m nd hd _ rng' sh hsh
      rw [← hcfg, ← hps] at hg
      obtain ⟨rng1, hv⟩ := shareVerify_good S hS m a rngV sh p' hg hn hcap (Or.inl ht)
      obtain ⟨pk', hk', hs'⟩ := hg.keys
      obtain ⟨tx', hagg⟩ := aggregatePvssShare_ok m a.config a.tx sh ⟨htxd, htxn, htx.encs_length, htx.comms_length, fun x w hx => by
        rw [hid', hfresh] at hx; cases hx⟩ (by omega) hs'.encs_length hs'.comms_length
      refine ⟨{ a with tx := tx' }, (receiveShare_ok_iff S m a _ rngV sh).2 ⟨rng1, tx', hv, hagg, rfl⟩, ?_⟩
      obtain ⟨-, ⟨p, hp1, hp2⟩, -⟩ := C73_contents S m nd _ rng'
        sh (fun i => match nd.aggregator.participants.get i with | some q => q.pkSig | none => 0)
        (fun i q hq => by simp [hq]) hcap' hsh
      rw [← hcfg] at hp2
      have hp3 := shares_congr hp2 (pk' := pk) (fun i hi => by
        obtain ⟨x, hx, hx'⟩ := hpk i hi
        rw [hps] at hx
        simp [hx, hx'])
      obtain ⟨-, -, -, -, h5, -, -⟩ := (aggregate_iff m _ _ _).1 hagg
      have := interpolatesTo_of_shares (shares_add htx hp3 h5)
      rw [eval_add, ← coeff_zero_eq_eval_zero p, hp1 0, if_pos (Nat.zero_le _), hwp 0 (Nat.succ_pos _)] at this
      exact this
    constructor
    · rintro ⟨sh, rng', a', h1, h2, h3⟩
      obtain ⟨a'', h4, h5⟩ := key sh rng' h1
      obtain rfl : a'' = a' := by rw [h4] at h2; exact (Prod.mk.inj h2).2
      have hlen : a''.tx.core.comms.length = a.config.numParticipants := by
        obtain ⟨rng1, tx', hv, hagg, rfl⟩ := (receiveShare_ok_iff S m a _ rngV sh).1 h4
        obtain ⟨-, -, -, -, h6, -, -⟩ := (aggregate_iff m _ _ _).1 hagg
        rw [(core_lengths h6).2.1, htx.comms_length]
      have hu := interpolatesTo_unique (by omega) (by omega) h5 h3
      refine ⟨hz.1 ((C73 S hH m nd _ hcap').1.1 ⟨_, h1⟩).2.2.2.1, ?_⟩
      rw [← smul_left_inj_of_ne hg2 hu]
      ring
    · rintro ⟨hc, h0⟩
      obtain ⟨seed, q', hsk, -, -⟩ := hd
      have hall : ∀ i < nd.aggregator.config.numParticipants, ¬ nd.aggregator.participants.get i = none := by
        intro i hi h
        rw [← hcfg] at hi
        obtain ⟨x, hx, -⟩ := hpk i hi
        rw [hps, h] at hx
        cases hx
      obtain ⟨⟨sh, rng'⟩, hsh⟩ := (C73 S hH m nd (Spec.withPrefix c tail) hcap').1.2 ⟨by rw [← hcfg]; omega, hall,
        by rw [← hcfg]; exact hid, hz.2 hc, by rw [hsk]; exact hE.keypair_ok seed⟩
      obtain ⟨a', h1, h2⟩ := key sh rng' hsh
      refine ⟨sh, rng', a', hsh, h1, ?_⟩
      rw [h0] at h2
      simpa using h2
  have hN : N = (univ.filter fun c : Fin (nd.aggregator.config.degree + 1) → ZMod r => c ≠ 0 ∧ c 0 = s - q.eval 0).card := by
    simp only [N]
    congr 1
    exact filter_congr fun c _ => hmain c
  rw [hN, hcfg]
  refine ⟨fun h => (card_first_ne_zero _ _).1 (sub_ne_zero.2 h), fun h => (card_first_ne_zero _ _).2 (sub_eq_zero.2 h)⟩

open Classical in
/-- Non-vacuity of C76_partial: a fresh aggregator (sharing of zero) and the concrete dealer. Of the 169 draws, 13 lead to the
secret 6. -/
example (rngV : Rng 13) : (univ.filter fun c : Fin (1 + 1) → ZMod 13 =>
      ∃ sh rng' a', (Toy.node 2).share (Toy.suite 13) .checked (Spec.withPrefix c fun _ => 0) = .ok (sh, rng') ∧
        Toy.agg.receiveShare (Toy.suite 13) .checked rngV sh = (.ok (), a') ∧
        Spec.InterpolatesTo 13 1 a'.tx.core.comms ((6 : ZMod 13) • (1 : ZMod 13))).card = 13 := by
  have hcore : Toy.agg.tx.core = Spec.constCore (0 : ZMod 13) 1 Toy.sk 4 := by decide
  have hk : Spec.KeyTable Toy.parties 4 Toy.sk := by
    intro i hi
    match i, hi with
    | 0, _ => exact ⟨_, rfl, rfl⟩
    | 1, _ => exact ⟨_, rfl, rfl⟩
    | 2, _ => exact ⟨_, rfl, rfl⟩
    | 3, _ => exact ⟨_, rfl, rfl⟩
  exact (C76_partial (Toy.suite 13) (Toy.pairLaws 13) (Toy.hashTotal 13) Toy.edLaws .checked (Toy.node 2)
    (Toy.goodDealer 2 (by decide)) Toy.agg rfl rfl Toy.sk hk (C 0) (by rw [hcore]; exact shares_const _ _ _ _ _) rfl rfl rfl
    (by decide) (by decide) (by decide) (by decide) (by decide) rngV (fun _ => 0) 6).1 (by rw [eval_C]; decide)

end Verif
