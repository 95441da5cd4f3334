import Verif.Lemmas.Honest
import Verif.Lemmas.Halts

/-!
# Verification of shares and aggregated shares: C03, C15 – C21
-/

open Finset Polynomial

set_option linter.unusedSectionVars false

namespace Verif

variable {r : ℕ} [Fact r.Prime] {G1 G2 K : Type}
  [AddCommGroup G1] [DecidableEq G1] [AddCommGroup G2] [DecidableEq G2] [CommMonoid K] [DecidableEq K]
  [Module (ZMod r) G1] [Module (ZMod r) G2]

/-! ### C03 -/

/-- **C03**. A share returned by a correctly set-up node is accepted by `receive_share` of every aggregator with the same
configuration and participants whose transcript is compatible, for all random streams of both sides. -/
theorem C03 (S : Suite r G1 G2 K) (hS : PairLaws S) (hE : EdLaws S.ed) (m m' : Mode) (nd : Node r G1 G2)
    (hd : Spec.GoodDealer S.ed nd) (rngD rngD' : Rng r) (sh : PVSSShare r G1 G2)
    (hsh : nd.share S m' rngD = .ok (sh, rngD'))
    (a : Aggregator r G1 G2) (hcfg : a.config = nd.aggregator.config)
    (hps : a.participants = nd.aggregator.participants)
    (hc : Spec.Compatible a.config a.tx nd.dealer.participant.id sh.signedProof.decompProof.gs)
    (hn : a.config.numParticipants ≤ r) (hcap : a.config.numParticipants < 2 ^ 58)
    (ht : a.config.degree + 2 ≤ a.config.numParticipants ∨
      (m = .wrapping ∧ a.config.degree + 1 = a.config.numParticipants)) (rng : Rng r) :
    (a.receiveShare S m rng sh).1 = .ok () := by
  obtain ⟨hid, p, hg⟩ := share_good S hE m' nd hd rngD rngD' sh hsh
  rw [← hcfg, ← hps] at hg
  obtain ⟨rng', h1⟩ := shareVerify_good S hS m a rng sh p hg hn hcap ht
  rw [← hid] at hc
  obtain ⟨pk, -, hs⟩ := hg.keys
  obtain ⟨tx, h2⟩ := aggregatePvssShare_ok m a.config a.tx sh hc (by have := hg.id_lt; omega) hs.encs_length hs.comms_length
  rw [(receiveShare_ok_iff S m a { a with tx := tx } rng sh).2 ⟨rng', tx, h1, h2, rfl⟩]

/-- **C03** (a fresh aggregator). In particular the first share is accepted. -/
theorem C03_fresh (S : Suite r G1 G2 K) (hS : PairLaws S) (hE : EdLaws S.ed) (m m' : Mode) (nd : Node r G1 G2)
    (hd : Spec.GoodDealer S.ed nd) (rngD rngD' : Rng r) (sh : PVSSShare r G1 G2)
    (hsh : nd.share S m' rngD = .ok (sh, rngD'))
    (hn : nd.aggregator.config.numParticipants ≤ r) (hcap : nd.aggregator.config.numParticipants < 2 ^ 58)
    (ht : nd.aggregator.config.degree + 2 ≤ nd.aggregator.config.numParticipants ∨
      (m = .wrapping ∧ nd.aggregator.config.degree + 1 = nd.aggregator.config.numParticipants)) (rng : Rng r) :
    ((Aggregator.new nd.aggregator.config nd.aggregator.participants).receiveShare S m rng sh).1 = .ok () := by
  refine C03 S hS hE m m' nd hd rngD rngD' sh hsh
    (Aggregator.new nd.aggregator.config nd.aggregator.participants) rfl rfl ⟨rfl, rfl, ?_, ?_, ?_⟩ hn hcap ht rng
  · simp [Aggregator.new, AggShare.empty, PVSSCore.empty]
  · simp [Aggregator.new, AggShare.empty, PVSSCore.empty]
  · intro x w h
    simp [Aggregator.new, AggShare.empty] at h

/-! ### C15 -/

/-- **C15**. `share_verify` accepts exactly the shares passing all listed conditions, and then has consumed exactly the
`n - t - 1` scalars of the degree challenge. -/
theorem C15 (S : Suite r G1 G2 K) (hS : PairLaws S) (m : Mode) (a : Aggregator r G1 G2) (rng rng' : Rng r)
    (sh : PVSSShare r G1 G2) (ht : a.config.degree + 2 ≤ a.config.numParticipants)
    (hn : a.config.numParticipants ≤ r) (hcap : a.config.numParticipants < 2 ^ 58) :
    a.shareVerify S m rng sh = .ok rng' ↔
      (∃ q, a.participants.get sh.participantId = some q ∧
        Spec.EncOk S a.config.srs.g2 q.pkSig sh.core sh.participantId ∧
        Spec.SignedOk S a.config.srs.g2 q.pkEd sh.signedProof) ∧
      sh.participantId < a.config.numParticipants ∧
      sh.core.encs.length = a.config.numParticipants ∧ sh.core.comms.length = a.config.numParticipants ∧
      Spec.DegreeTest a.config.degree sh.core.comms rng ∧
      Spec.InterpolatesTo r a.config.degree sh.core.comms sh.signedProof.decompProof.gs ∧
      rng' = rng.drop (a.config.numParticipants - a.config.degree - 1) := by
  rw [shareVerify_iff S hS]
  constructor
  · rintro ⟨q, h1, h2, h3, h4, h5, h6, h7, h8⟩
    rw [ensureDegree_iff m rng rng' _ (by omega) (by omega) (by omega), h4] at h5
    rw [lagrangeSimple_iff m (by omega) (by omega) (by omega)] at h6
    exact ⟨⟨q, h1, h7, h8⟩, h2, h3, h4, h5.1, h6, h5.2⟩
  · rintro ⟨⟨q, h1, h7, h8⟩, h2, h3, h4, h5, h6, h9⟩
    refine ⟨q, h1, h2, h3, h4, ?_, ?_, h7, h8⟩
    · rw [ensureDegree_iff m rng rng' _ (by omega) (by omega) (by omega), h4]
      exact ⟨h5, h9⟩
    · rw [lagrangeSimple_iff m (by omega) (by omega) (by omega)]
      exact h6

/-- **C15** (boundary). With fewer parties, `n ≤ t + 1`, no share is ever accepted, except for `n = t + 1` in builds where the
degree test is skipped by wrap-around (`Mode.wrapping`, see C14). -/
theorem C15_boundary (S : Suite r G1 G2 K) (hS : PairLaws S) (m : Mode) (a : Aggregator r G1 G2) (rng rng' : Rng r)
    (sh : PVSSShare r G1 G2) (ht : a.config.numParticipants ≤ a.config.degree + 1)
    (h : a.shareVerify S m rng sh = .ok rng') : m = .wrapping ∧ a.config.numParticipants = a.config.degree + 1 := by
  obtain ⟨q, -, -, -, h4, h5, -⟩ := (shareVerify_iff S hS m a rng rng' sh).1 h
  rcases Nat.lt_trichotomy sh.core.comms.length a.config.degree with hlt | heq | hgt
  · rw [(C14_err m rng _ _).2 hlt] at h5; cases h5
  · rw [← heq, C14_eq] at h5; cases h5
  · have : sh.core.comms.length = a.config.degree + 1 := by omega
    cases m with
    | checked => rw [C14_succ_checked rng _ _ this] at h5; cases h5
    | wrapping => exact ⟨rfl, by omega⟩
    | wrappingIncl => rw [C14_succ_wrappingIncl rng _ _ this] at h5; cases h5

/-! ### C16 -/

/-- Every encryption of `core` is correct for the registered key of its party. -/
def Spec.AllEncOk (S : Suite r G1 G2 K) (g2 : G2) (ps : BMap (Participant G1)) (n : ℕ) (core : PVSSCore G1 G2) : Prop :=
  ∀ i < n, ∃ q, ps.get i = some q ∧ Spec.EncOk S g2 q.pkSig core i

/-- The claim of C16. -/
def C16_claim (S : Suite r G1 G2 K) (m : Mode) (a : Aggregator r G1 G2) : Prop :=
  ∀ rng rng' sh, a.shareVerify S m rng sh = .ok rng' →
    Spec.AllEncOk S a.config.srs.g2 a.participants a.config.numParticipants sh.core

/-- **C16** (forgery). In an accepted share the encryption of any other party can be replaced by anything: the result is
accepted with the same randomness; unless the replacement is the original, not both are correct encryptions. -/
theorem C16_forge (S : Suite r G1 G2 K) (hS : PairLaws S) (m : Mode) (a : Aggregator r G1 G2) (rng rng' : Rng r)
    (sh : PVSSShare r G1 G2) (h : a.shareVerify S m rng sh = .ok rng') (j : ℕ) (hj : j ≠ sh.participantId)
    (hjn : j < a.config.numParticipants) (e : G1) :
    a.shareVerify S m rng { sh with core := { sh.core with encs := sh.core.encs.set j e } } = .ok rng' ∧
    (a.config.srs.g2 ≠ 0 → sh.core.encs[j]? ≠ some e → ∀ pk, Spec.EncOk S a.config.srs.g2 pk sh.core j →
      ¬ Spec.EncOk S a.config.srs.g2 pk { sh.core with encs := sh.core.encs.set j e } j) := by
  rw [shareVerify_iff S hS] at h ⊢
  obtain ⟨q, h1, h2, h3, h4, h5, h6, ⟨e0, c0, h7, h8, h9⟩, h10⟩ := h
  refine ⟨⟨q, h1, h2, ?_, h4, h5, h6, ⟨e0, c0, ?_, h8, h9⟩, h10⟩, ?_⟩
  · simpa using h3
  · simp only
    rw [List.getElem?_set_ne hj]
    exact h7
  · rintro hg hne pk ⟨e1, c1, h11, h12, h13⟩ ⟨e2, c2, h14, h15, h16⟩
    simp only at h14 h15
    rw [h12] at h15
    cases h15
    rw [List.getElem?_set_self (by omega)] at h14
    cases h14
    rw [h13] at h16
    exact hne (by rw [h11, hS.left_inj hg h16])

/-- **C16** (proved part): an accepted share encrypts the committed value correctly for the sender itself. -/
theorem C16_partial (S : Suite r G1 G2 K) (hS : PairLaws S) (m : Mode) (a : Aggregator r G1 G2) (rng rng' : Rng r)
    (sh : PVSSShare r G1 G2) (h : a.shareVerify S m rng sh = .ok rng') :
    ∃ q, a.participants.get sh.participantId = some q ∧
      Spec.EncOk S a.config.srs.g2 q.pkSig sh.core sh.participantId := by
  obtain ⟨q, h1, -, -, -, -, -, h7, -⟩ := (shareVerify_iff S hS m a rng rng' sh).1 h
  exact ⟨q, h1, h7⟩

/-! ### a concrete honest share -/

namespace Toy

theorem goodDealer (i : ℕ) (hi : i < 4) : Spec.GoodDealer (r := 13) (G2 := ZMod 13) ed (node i) := by
  refine ⟨pad32 [UInt8.ofNat i], participant i (sk i), rfl, ?_, rfl⟩
  match i, hi with
  | 0, _ => rfl
  | 1, _ => rfl
  | 2, _ => rfl
  | 3, _ => rfl

theorem sharePvss52 : ∃ rng', (node 2).sharePvss .checked rng52 = .ok ((core52, ⟨5, 11⟩), rng') := by
  obtain ⟨x, hx⟩ := ((C02 .checked (node 2) rng52 (by decide)).1).2
    ⟨by decide, by decide, by decide, 0, by decide, by decide⟩
  refine ⟨x.2, ?_⟩
  rw [hx]
  have h1 := hx
  rw [sharePvss_eq, polyRand_ok _ _ (by decide), Res.bind_ok'] at h1
  have ht : trim ((List.range (1 + 1)).map rng52) = [5, 2] := by decide
  simp only [node, Node.new, Aggregator.new, cfg, ht] at h1
  have h2 : shareRest .checked (node 2) [5, 2] (rng52.drop 2) =
      .ok ((core52, ⟨5, 11⟩), rng52.drop 2) := by rfl
  have h3 : Res.ok x = (Res.ok ((core52, ⟨5, 11⟩), rng52.drop 2) : Res PVSSError _) := by
    rw [← h1]; exact h2
  rw [Res.ok.inj h3]

/-- The run of `share` by party 2 with the stream 5, 2, 0, …. -/
theorem share52 : ∃ sh rng', (node 2).share (suite 13) .checked rng52 = .ok (sh, rng') ∧ sh.core = core52 := by
  obtain ⟨rng', h⟩ := sharePvss52
  exact share_total (suite 13) (hashTotal 13) edLaws .checked (node 2) (goodDealer 2 (by decide)) rng52 h

/-- A fresh aggregator of the concrete configuration. -/
def agg : Aggregator 13 (ZMod 13) (ZMod 13) := Aggregator.new cfg parties

theorem accepted52 : ∃ sh, sh.core = core52 ∧ sh.participantId = 2 ∧
    (∃ p, Spec.GoodShare (suite 13) cfg parties sh p) ∧
    ∀ rng, ∃ rng', agg.shareVerify (suite 13) .checked rng sh = .ok rng' := by
  obtain ⟨sh, rng', h, hc⟩ := share52
  obtain ⟨hid, p, hg⟩ := share_good (suite 13) edLaws .checked (node 2) (goodDealer 2 (by decide)) rng52 rng' sh h
  exact ⟨sh, hc, hid, ⟨p, hg⟩, fun rng => shareVerify_good (suite 13) (pairLaws 13) .checked agg rng sh p hg
    (by decide) (by decide) (Or.inl (by decide))⟩

end Toy

/-- Non-vacuity of C03: the share of the concrete run is received. -/
example (rng : Rng 13) : ∃ sh rngD', (Toy.node 2).share (Toy.suite 13) .checked Toy.rng52 = .ok (sh, rngD') ∧
    (Toy.agg.receiveShare (Toy.suite 13) .checked rng sh).1 = .ok () := by
  obtain ⟨sh, rng', h, -⟩ := Toy.share52
  exact ⟨sh, rng', h, C03_fresh (Toy.suite 13) (Toy.pairLaws 13) Toy.edLaws .checked .checked (Toy.node 2)
    (Toy.goodDealer 2 (by decide)) Toy.rng52 rng' sh h (by decide) (by decide) (Or.inl (by decide)) rng⟩

/-- Non-vacuity of C15, C16_forge, C16_partial, C17_maul: an accepted share. -/
example (rng : Rng 13) : ∃ sh rng', Toy.agg.shareVerify (Toy.suite 13) .checked rng sh = .ok rng' := by
  obtain ⟨sh, -, -, -, h⟩ := Toy.accepted52
  exact ⟨sh, h rng⟩

/-- **C16** is false: a share with a wrong encryption for party 0 is accepted. -/
theorem C16_false : ¬ C16_claim (Toy.suite 13) .checked Toy.agg := by
  intro hc
  obtain ⟨sh, hcore, hid, -, h⟩ := Toy.accepted52
  obtain ⟨rng', h⟩ := h Toy.rng52
  obtain ⟨h1, h2⟩ := C16_forge (Toy.suite 13) (Toy.pairLaws 13) .checked Toy.agg Toy.rng52 rng' sh h 0 (by rw [hid]; decide)
    (by decide) 3
  obtain ⟨q, hq, hok⟩ := hc _ _ _ h1 0 (by decide)
  refine h2 (by decide) (by rw [hcore]; decide) q.pkSig ?_ hok
  have : q = Toy.participant 0 (Toy.sk 0) := by
    have : Toy.agg.participants.get 0 = some (Toy.participant 0 (Toy.sk 0)) := rfl
    rw [this] at hq
    exact (Option.some.inj hq).symm
  rw [this, hcore]
  exact ⟨14, 7, rfl, rfl, by decide⟩

/-! ### C17 -/

/-- The share `sh` with the multiples of a polynomial `q` added to commitments and encryptions; needs no secret. -/
noncomputable def Spec.maul (g2 : G2) (pk : ℕ → G1) (q : (ZMod r)[X]) (sh : PVSSShare r G1 G2) : PVSSShare r G1 G2 :=
  { sh with core := ⟨sh.core.encs.mapIdx fun i e => e + q.eval (Spec.point r i) • pk i,
      sh.core.comms.mapIdx fun i c => c + q.eval (Spec.point r i) • g2⟩ }

/-- The claim of C17: the signed proof determines the accepted share. -/
def C17_claim (S : Suite r G1 G2 K) (m : Mode) (a : Aggregator r G1 G2) : Prop :=
  ∀ rng rng1 rng2 sh sh', a.shareVerify S m rng sh = .ok rng1 → a.shareVerify S m rng sh' = .ok rng2 →
    sh.participantId = sh'.participantId → sh.signedProof = sh'.signedProof → sh = sh'

/-- **C17** (mauling). For any polynomial `q` of degree at most `t` with `q(0) = 0`, the mauled share is accepted with the same
randomness, and it differs from the original as soon as `q` does not vanish at some party's point. -/
theorem C17_maul (S : Suite r G1 G2 K) (hS : PairLaws S) (m : Mode) (a : Aggregator r G1 G2) (rng rng' : Rng r)
    (sh : PVSSShare r G1 G2) (ht : a.config.degree + 2 ≤ a.config.numParticipants)
    (hn : a.config.numParticipants ≤ r) (hcap : a.config.numParticipants < 2 ^ 58)
    (h : a.shareVerify S m rng sh = .ok rng') (pk : ℕ → G1)
    (hpk : ∀ i p, a.participants.get i = some p → p.pkSig = pk i)
    (q : (ZMod r)[X]) (hq : q.natDegree ≤ a.config.degree) (hq0 : q.eval 0 = 0) :
    a.shareVerify S m rng (Spec.maul a.config.srs.g2 pk q sh) = .ok rng' ∧
    (a.config.srs.g2 ≠ 0 → ∀ i < a.config.numParticipants, q.eval (Spec.point r i) ≠ 0 →
      Spec.maul a.config.srs.g2 pk q sh ≠ sh) := by
  rw [C15 S hS m a rng rng' _ ht hn hcap] at h ⊢
  obtain ⟨⟨p, h1, ⟨e, c, h2, h3, h4⟩, h5⟩, h6, h7, h8, h9, h10, h11⟩ := h
  -- the added vector
  let v : List G2 := (List.range a.config.numParticipants).map fun i => q.eval (Spec.point r i) • a.config.srs.g2
  have hv : ∀ i (hi : i < v.length), v[i] = q.eval (Spec.point r i) • a.config.srs.g2 := by
    intro i hi
    simp [v]
  have hvl : v.length = a.config.numParticipants := by simp [v]
  have hcomms : (sh.core.comms.mapIdx fun i c => c + q.eval (Spec.point r i) • a.config.srs.g2) =
      (sh.core.comms.zip v).map fun p => p.1 + p.2 := by
    apply List.ext_getElem
    · simp [h8, hvl]
    · intro i hi hi'
      simp [v]
  constructor
  · refine ⟨⟨p, h1, ⟨e + q.eval (Spec.point r sh.participantId) • pk sh.participantId,
      c + q.eval (Spec.point r sh.participantId) • a.config.srs.g2, ?_, ?_, ?_⟩, h5⟩, h6, ?_, ?_, ?_, ?_, h11⟩
    · simp [Spec.maul, List.getElem?_mapIdx, h2]
    · simp [Spec.maul, List.getElem?_mapIdx, h3]
    · rw [hS.add_right, hS.add_left, h4, ← hpk _ _ h1, hS.smul_comm]
    · simpa [Spec.maul] using h7
    · simpa [Spec.maul] using h8
    · simp only [Spec.maul]
      rw [hcomms]
      refine degreeTest_add (by rw [h8, hvl]) h9 (degreeTest_codeword (by omega) (by omega) (codeword_of_poly hq hv) _)
    · simp only [Spec.maul]
      rw [hcomms]
      have h0 : Spec.InterpolatesTo r a.config.degree v (0 : G2) := by
        refine ⟨fun k => q.coeff k • a.config.srs.g2, fun j hj _ => ?_, ?_⟩
        · rw [hv j hj, eval_eq_sum_range' (Nat.lt_succ_of_le hq), sum_smul]
          exact sum_congr rfl fun k _ => by rw [smul_smul, mul_comm]
        · simp only [coeff_zero_eq_eval_zero, hq0, zero_smul]
      have := interpolatesTo_add (by rw [h8, hvl]) h10 h0
      rwa [add_zero] at this
  · intro hg i hi hne heq
    have h12 : (Spec.maul a.config.srs.g2 pk q sh).core.comms = sh.core.comms := by rw [heq]
    have hi' : i < sh.core.comms.length := by omega
    have h13 : (Spec.maul a.config.srs.g2 pk q sh).core.comms[i]? = sh.core.comms[i]? := by rw [h12]
    simp only [Spec.maul, List.getElem?_mapIdx, List.getElem?_eq_getElem hi', Option.map_some, Option.some.injEq,
      add_eq_left] at h13
    rcases smul_eq_zero.1 h13 with h14 | h14
    · exact hne h14
    · exact hg h14

/-- **C17** is false: party 2's accepted share is turned into a different accepted share with the same signed proof. -/
theorem C17_false : ¬ C17_claim (Toy.suite 13) .checked Toy.agg := by
  intro hc
  obtain ⟨sh, hcore, hid, -, h⟩ := Toy.accepted52
  obtain ⟨rng', h⟩ := h Toy.rng52
  obtain ⟨h1, h2⟩ := C17_maul (Toy.suite 13) (Toy.pairLaws 13) .checked Toy.agg Toy.rng52 rng' sh (by decide) (by decide)
    (by decide) h (fun i => match Toy.agg.participants.get i with | some q => q.pkSig | none => 0)
    (fun i p hp => by simp [hp]) X (by simp [Toy.agg, Aggregator.new, Toy.cfg]) (by simp)
  exact h2 (by decide) 0 (by decide) (by simp [Spec.point]) (hc _ _ _ _ _ h1 h rfl rfl)

/-- **C17** (proved part): two accepted shares with one signed proof agree in what the proof is about: both commitment
vectors interpolate at zero to the signed `gs`, so their difference interpolates to zero. -/
theorem C17_partial (S : Suite r G1 G2 K) (hS : PairLaws S) (m : Mode) (a : Aggregator r G1 G2) (rng rng1 rng2 : Rng r)
    (sh sh' : PVSSShare r G1 G2) (ht : a.config.degree + 1 ≤ a.config.numParticipants)
    (hn : a.config.numParticipants ≤ r) (hcap : a.config.numParticipants < 2 ^ 64)
    (h : a.shareVerify S m rng sh = .ok rng1) (h' : a.shareVerify S m rng sh' = .ok rng2)
    (hgs : sh.signedProof = sh'.signedProof) :
    Spec.InterpolatesTo r a.config.degree sh.core.comms sh.signedProof.decompProof.gs ∧
    Spec.InterpolatesTo r a.config.degree sh'.core.comms sh.signedProof.decompProof.gs ∧
    Spec.InterpolatesTo r a.config.degree ((sh.core.comms.zip sh'.core.comms).map fun p => p.1 - p.2) (0 : G2) := by
  obtain ⟨q, -, -, -, h4, -, h6, -, -⟩ := (shareVerify_iff S hS m a rng rng1 sh).1 h
  obtain ⟨q', -, -, -, h4', -, h6', -, -⟩ := (shareVerify_iff S hS m a rng rng2 sh').1 h'
  rw [lagrangeSimple_iff m (by omega) (by omega) (by omega)] at h6 h6'
  rw [← hgs] at h6'
  refine ⟨h6, h6', ?_⟩
  obtain ⟨A, hA, hA0⟩ := h6
  obtain ⟨B, hB, hB0⟩ := h6'
  refine ⟨fun k => A k - B k, fun j hj hjt => ?_, by simp only; rw [hA0, hB0, sub_self]⟩
  have hj1 : j < sh.core.comms.length := by simp at hj; omega
  simp only [List.getElem_map, List.getElem_zip, smul_sub, sum_sub_distrib]
  rw [hA j hj1 hjt, hB j (by omega) hjt]

/-! ### C18 -/

/-- **C18** (`SignedProof::verify`). Never an error value. -/
theorem C18_signed (S : Suite r G1 G2 K) (p : SignedProof r G2) (cfg : Config G1 G2) (pk : PublicKey) :
    (∀ e, p.verify S cfg pk ≠ .err e) ∧
    (HashTotal S.hash → p.verify S cfg pk = .ok () ∨ p.verify S cfg pk = .panic) := by
  refine ⟨signedVerify_ne_err S p cfg pk, fun hH => ?_⟩
  have h1 := signedVerify_ne_err S p cfg pk
  have h2 := signedVerify_ne_diverge S hH p cfg pk
  cases h : p.verify S cfg pk with
  | ok a => exact Or.inl rfl
  | err e => exact absurd h (h1 e)
  | panic => exact Or.inr rfl
  | diverge => exact absurd h h2

/-- **C18** (`share_verify` itself never returns `InvalidSignedProofError`). -/
theorem C18_never_signedProofError (S : Suite r G1 G2 K) (m : Mode) (a : Aggregator r G1 G2) (rng : Rng r)
    (sh : PVSSShare r G1 G2) (ag : AggShare r G1 G2) :
    a.shareVerify S m rng sh ≠ .err .InvalidSignedProofError ∧
    a.aggregationVerify S m rng ag ≠ .err .InvalidSignedProofError := by
  have hens : ∀ (rng : Rng r) (comms : List G2), (ensureDegree m rng comms a.config.degree).orErr PVSSError.DualCodeError ≠
      (.err .InvalidSignedProofError : Res PVSSError (Rng r)) := by
    intro rng comms h
    rw [Res.orErr_eq_err] at h
    cases h.2
  constructor
  · intro h
    unfold Aggregator.shareVerify at h
    simp only [Res.bind_eq_err] at h
    rcases h with h | ⟨p, -, h | ⟨c, -, h | ⟨e, -, h⟩⟩⟩
    · cases h2 : a.participants.get sh.participantId <;> rw [h2] at h <;> cases h
    · exact idx_ne_err h
    · exact idx_ne_err h
    · split at h
      · cases h
      · rw [Res.bind_eq_err] at h
        rcases h with h | ⟨_, -, h⟩
        · unfold Aggregator.coreVerify at h
          split at h
          · cases h
          · simp only [Res.bind_eq_err] at h
            rcases h with h | ⟨_, -, h | ⟨_, -, h⟩⟩
            · exact hens _ _ h
            · exact Res.unwrap_ne_err h
            · split at h <;> cases h
        · rw [Res.bind_eq_err] at h
          rcases h with h | ⟨_, -, h⟩
          · rw [Res.orErr_eq_err] at h
            obtain ⟨⟨e, h⟩, -⟩ := h
            exact signedVerify_ne_err S _ _ _ e h
          · cases h
  · intro h
    unfold Aggregator.aggregationVerify at h
    simp only at h
    split at h
    · cases h
    rw [Res.bind_eq_err] at h
    rcases h with h | ⟨rng1, -, h⟩
    · exact hens _ _ h
    rw [Res.bind_eq_err] at h
    rcases h with h | ⟨x, -, h⟩
    · have hloop : ∀ (l : List ℕ) s, loop (a.pairStep ag.core (List.replicate a.config.numParticipants (rng1 0))) s l ≠
          .err .InvalidSignedProofError := by
        intro l
        induction l with
        | nil => intro s h; cases h
        | cons i l ih =>
          intro s h
          rw [loop_cons, Res.bind_eq_err] at h
          rcases h with h | ⟨s', -, h⟩
          · unfold Aggregator.pairStep at h
            simp only [Res.bind_eq_err] at h
            rcases h with h | ⟨_, -, h | ⟨_, -, h | ⟨_, -, h | ⟨_, -, h⟩⟩⟩⟩
            · exact idx_ne_err h
            · exact idx_ne_err h
            · cases h2 : a.participants.get i <;> rw [h2] at h <;> cases h
            · exact idx_ne_err h
            · cases h
          · exact ih s' h
      exact hloop _ _ h
    split at h
    · cases h
    rw [Res.bind_eq_err] at h
    rcases h with h | ⟨pt, -, h⟩
    · exact Res.unwrap_ne_err h
    rw [Res.bind_eq_err] at h
    rcases h with h | ⟨tot, -, h⟩
    · have hloop : ∀ (l : List (ℕ × (SignedProof r G2 × UInt64))) s, loop (a.contribStep S) s l ≠
          .err .InvalidSignedProofError := by
        intro l
        induction l with
        | nil => intro s h; cases h
        | cons e l ih =>
          intro s h
          rw [loop_cons, Res.bind_eq_err] at h
          rcases h with h | ⟨s', -, h⟩
          · unfold Aggregator.contribStep at h
            simp only [Res.bind_eq_err] at h
            rcases h with h | ⟨_, -, h | ⟨_, -, h⟩⟩
            · cases h2 : a.participants.get e.1 <;> rw [h2] at h <;> cases h
            · rw [Res.orErr_eq_err] at h
              obtain ⟨⟨e, h⟩, -⟩ := h
              exact signedVerify_ne_err S _ _ _ e h
            · cases h
          · exact ih s' h
      exact hloop _ _ h
    split at h <;> cases h

/-- **C18** (`receive_share`). The outcome is `Ok`, a panic, or `Err(TranscriptDifferentCommitments)`. -/
theorem C18_share (S : Suite r G1 G2 K) (m : Mode) (a : Aggregator r G1 G2) (rng : Rng r) (sh : PVSSShare r G1 G2) :
    (∀ e, (a.receiveShare S m rng sh).1 = .err e → e = .TranscriptDifferentCommitments) ∧
    (HashTotal S.hash → (a.receiveShare S m rng sh).1 ≠ .diverge) := by
  unfold Aggregator.receiveShare
  constructor
  · intro e
    cases a.shareVerify S m rng sh with
    | ok rng' =>
      simp only [Res.unwrap_ok]
      cases h : a.tx.aggregatePvssShare m sh with
      | err e' =>
        intro h'
        cases h'
        rcases aggregate_err h with ⟨h1, -⟩ | ⟨-, -, h1, -⟩
        · simp [AggShare.ofShare] at h1
        · exact h1
      | ok _ => simp
      | panic => simp
      | diverge => simp
    | err e => simp
    | panic => simp
    | diverge => simp
  · intro hH
    have h1 := shareVerify_halts S hH m a rng sh
    cases h : a.shareVerify S m rng sh with
    | ok rng' =>
      simp only [Res.unwrap_ok]
      have h2 := aggregate_ne_diverge (m := m) (a := a.tx) (b := AggShare.ofShare a.tx.degree a.tx.numParticipants sh)
      cases h3 : a.tx.aggregatePvssShare m sh with
      | diverge => exact absurd h3 h2
      | ok _ => simp
      | err _ => simp
      | panic => simp
    | err e => simp
    | panic => simp
    | diverge => exact absurd h h1

/-- **C18** (`receive_aggregated_share`). The outcome is `Ok` or a panic. -/
theorem C18_agg (S : Suite r G1 G2 K) (m : Mode) (a : Aggregator r G1 G2) (rng : Rng r) (ag : AggShare r G1 G2) :
    (∀ e, (a.receiveAggregatedShare S m rng ag).1 ≠ .err e) ∧
    (HashTotal S.hash → (a.receiveAggregatedShare S m rng ag).1 = .ok () ∨ (a.receiveAggregatedShare S m rng ag).1 = .panic) := by
  unfold Aggregator.receiveAggregatedShare
  constructor
  · intro e
    cases a.aggregationVerify S m rng ag with
    | ok rng' =>
      simp only [Res.unwrap_ok]
      cases a.tx.aggregate m ag <;> simp
    | err e => simp
    | panic => simp
    | diverge => simp
  · intro hH
    have h1 := aggregationVerify_halts S hH m a rng ag
    cases h : a.aggregationVerify S m rng ag with
    | ok rng' =>
      simp only [Res.unwrap_ok]
      have h2 := aggregate_ne_diverge (m := m) (a := a.tx) (b := ag)
      cases h3 : a.tx.aggregate m ag with
      | diverge => exact absurd h3 h2
      | ok _ => simp
      | err _ => simp
      | panic => simp
    | err e => simp
    | panic => simp
    | diverge => exact absurd h h1

/-- **C18** (invalid input panics). A share or aggregated share whose verification returns an error makes the receiving call
panic; the error value does not reach the caller. -/
theorem C18_panics (S : Suite r G1 G2 K) (m : Mode) (a : Aggregator r G1 G2) (rng : Rng r) :
    (∀ sh e, a.shareVerify S m rng sh = .err e → (a.receiveShare S m rng sh).1 = .panic) ∧
    (∀ ag e, a.aggregationVerify S m rng ag = .err e → (a.receiveAggregatedShare S m rng ag).1 = .panic) ∧
    (∀ ag rng' e, a.aggregationVerify S m rng ag = .ok rng' → a.tx.aggregate m ag = .err e →
      (a.receiveAggregatedShare S m rng ag).1 = .panic) := by
  refine ⟨fun sh e h => ?_, fun ag e h => ?_, fun ag rng' e h h' => ?_⟩
  · simp [Aggregator.receiveShare, h]
  · simp [Aggregator.receiveAggregatedShare, h]
  · simp [Aggregator.receiveAggregatedShare, h, h']

/-- Non-vacuity of C18: a share with an unknown id makes `receive_share` panic. -/
example (rng : Rng 13) (sp : SignedProof 13 (ZMod 13)) :
    (Toy.agg.receiveShare (Toy.suite 13) .checked rng ⟨7, Toy.core52, sp⟩).1 = .panic :=
  (C18_panics (Toy.suite 13) .checked Toy.agg rng).1 _ (.InvalidParticipantId 7) rfl

/-! ### C19 -/

/-- **C19**. A call that does not return `Ok` leaves the aggregator as it was; no call changes configuration or
participants. -/
theorem C19 (S : Suite r G1 G2 K) (m : Mode) (a : Aggregator r G1 G2) (op : Op r G1 G2) :
    ((a.step S m op).1 ≠ .ok () → (a.step S m op).2 = a) ∧
    (a.step S m op).2.config = a.config ∧ (a.step S m op).2.participants = a.participants := by
  cases op with
  | share rng sh =>
    simp only [Aggregator.step, Aggregator.receiveShare]
    cases a.shareVerify S m rng sh with
    | ok rng' =>
      simp only [Res.unwrap_ok]
      cases a.tx.aggregatePvssShare m sh <;> simp
    | err e => simp
    | panic => simp
    | diverge => simp
  | agg rng ag =>
    simp only [Aggregator.step, Aggregator.receiveAggregatedShare]
    cases a.aggregationVerify S m rng ag with
    | ok rng' =>
      simp only [Res.unwrap_ok]
      cases a.tx.aggregate m ag <;> simp
    | err e => simp
    | panic => simp
    | diverge => simp

/-- **C19** (histories). Configuration and participants are fixed over every sequence of calls, and a sequence none of whose
calls returns `Ok` from the initial state leaves the whole aggregator unchanged. -/
theorem C19_run (S : Suite r G1 G2 K) (m : Mode) (a : Aggregator r G1 G2) (ops : List (Op r G1 G2)) :
    (a.run S m ops).config = a.config ∧ (a.run S m ops).participants = a.participants ∧
    ((∀ op ∈ ops, (a.step S m op).1 ≠ .ok ()) → a.run S m ops = a) := by
  induction ops generalizing a with
  | nil => exact ⟨rfl, rfl, fun _ => rfl⟩
  | cons op ops ih =>
    have h1 := C19 S m a op
    have h2 := ih (a.step S m op).2
    have h3 : a.run S m (op :: ops) = (a.step S m op).2.run S m ops := rfl
    refine ⟨by rw [h3, h2.1, h1.2.1], by rw [h3, h2.2.1, h1.2.2], fun h => ?_⟩
    have h4 := h1.1 (h op (by simp))
    rw [h3, h4]
    exact (ih a).2.2 fun op' hop => h op' (by simp [hop])

/-- Non-vacuity of C19: a rejected call. -/
example (rng : Rng 13) (sp : SignedProof 13 (ZMod 13)) :
    (Toy.agg.step (Toy.suite 13) .checked (.share rng ⟨7, Toy.core52, sp⟩)).1 ≠ .ok () := by
  have := (C18_panics (Toy.suite 13) .checked Toy.agg rng).1 ⟨7, Toy.core52, sp⟩ (.InvalidParticipantId 7) rfl
  simp only [Aggregator.step]
  rw [this]
  simp

/-! ### C20 -/

/-- **C20**. `aggregation_verify` accepts exactly the aggregated shares passing all listed conditions, and then has consumed
the degree challenge and one more scalar, which is the `ρ` of the pairing equation. -/
theorem C20 (S : Suite r G1 G2 K) (hS : PairLaws S) (m : Mode) (a : Aggregator r G1 G2) (rng rng' : Rng r)
    (ag : AggShare r G1 G2) (ht : a.config.degree + 2 ≤ a.config.numParticipants)
    (hn : a.config.numParticipants ≤ r) (hcap : a.config.numParticipants < 2 ^ 58) :
    a.aggregationVerify S m rng ag = .ok rng' ↔
      ag.core.encs.length = a.config.numParticipants ∧ ag.core.comms.length = a.config.numParticipants ∧
      Spec.DegreeTest a.config.degree ag.core.comms rng ∧
      (∃ pk, Spec.KeyTable a.participants a.config.numParticipants pk ∧
        Spec.BatchEq S a.config.srs.g2 pk ag.core (rng (a.config.numParticipants - a.config.degree - 1))) ∧
      (∀ i x w, ag.contributions.get i = some (x, w) →
        ∃ q, a.participants.get i = some q ∧ Spec.SignedOk S a.config.srs.g2 q.pkEd x) ∧
      Spec.InterpolatesTo r a.config.degree ag.core.comms (Spec.weightedGs ag.contributions) ∧
      rng' = rng.drop (a.config.numParticipants - a.config.degree) := by
  rw [aggregationVerify_iff S hS]
  have hdrop : ∀ k, (rng.drop (a.config.numParticipants - a.config.degree - 1)) k =
      rng (a.config.numParticipants - a.config.degree - 1 + k) := fun k => rfl
  have hdrop' : (rng.drop (a.config.numParticipants - a.config.degree - 1)).drop 1 =
      rng.drop (a.config.numParticipants - a.config.degree) := by
    funext k
    show rng (a.config.numParticipants - a.config.degree - 1 + (1 + k)) = rng (a.config.numParticipants - a.config.degree + k)
    congr 1; omega
  constructor
  · rintro ⟨h1, h2, rng1, h3, h4, h5, h6, h7⟩
    rw [ensureDegree_iff m rng rng1 _ (by omega) (by omega) (by omega), h2] at h3
    rw [lagrangeSimple_iff m (by omega) (by omega) (by omega)] at h6
    obtain ⟨h3, rfl⟩ := h3
    rw [hdrop] at h4
    exact ⟨h1, h2, h3, h4, h5, h6, by rw [h7, hdrop']⟩
  · rintro ⟨h1, h2, h3, h4, h5, h6, h7⟩
    refine ⟨h1, h2, rng.drop (a.config.numParticipants - a.config.degree - 1), ?_, ?_, h5, ?_, ?_⟩
    · rw [ensureDegree_iff m rng _ _ (by omega) (by omega) (by omega), h2]
      exact ⟨h3, rfl⟩
    · rw [hdrop]; exact h4
    · rw [lagrangeSimple_iff m (by omega) (by omega) (by omega)]; exact h6
    · rw [hdrop', h7]

namespace Toy

/-- The one-share transcript of the concrete share is accepted with every stream. -/
theorem acceptedAgg : ∃ ag : AggShare 13 (ZMod 13) (ZMod 13), ag.core = core52 ∧
    ag.contributions.get 2 ≠ none ∧
    ∀ rng, ∃ rng', agg.aggregationVerify (suite 13) .checked rng ag = .ok rng' := by
  obtain ⟨sh, hcore, hid, ⟨p, hg⟩, -⟩ := accepted52
  obtain ⟨pk, hk, hs⟩ := hg.keys
  obtain ⟨q, hq, hsig⟩ := hg.signed
  refine ⟨AggShare.ofShare 1 4 sh, hcore, ?_, fun rng => ?_⟩
  · rw [get_ofShare, if_pos hid.symm]; simp
  refine aggregationVerify_good (suite 13) (pairLaws 13) .checked agg rng _ p pk hk hs ?_ ?_ (by decide) (by decide)
    (Or.inl (by decide))
  · rw [weightedGs_ofShare, hg.gs]; rfl
  · intro i x w h
    rw [get_ofShare] at h
    split at h
    · rename_i hi
      cases h
      rw [hi]
      exact ⟨q, hq, hsig⟩
    · cases h

end Toy

/-- Non-vacuity of C20. -/
example (rng : Rng 13) : ∃ ag rng', Toy.agg.aggregationVerify (Toy.suite 13) .checked rng ag = .ok rng' := by
  obtain ⟨ag, -, -, h⟩ := Toy.acceptedAgg
  exact ⟨ag, h rng⟩

/-! ### C21 -/

/-- The claim of C21 (in its weakest form): a transcript with an incorrect encryption is rejected for at least one random
stream. -/
def C21_claim (S : Suite r G1 G2 K) (m : Mode) (a : Aggregator r G1 G2) : Prop :=
  ∀ ag, (∀ rng, ∃ rng', a.aggregationVerify S m rng ag = .ok rng') →
    Spec.AllEncOk S a.config.srs.g2 a.participants a.config.numParticipants ag.core

/-- **C21** (forgery). In an accepted transcript the encryptions can be replaced by any others of the same number and the same
sum; the result is accepted with the same randomness. -/
theorem C21_forge (S : Suite r G1 G2 K) (hS : PairLaws S) (m : Mode) (a : Aggregator r G1 G2) (rng rng' : Rng r)
    (ag : AggShare r G1 G2) (h : a.aggregationVerify S m rng ag = .ok rng') (encs : List G1)
    (hl : encs.length = ag.core.encs.length) (hsum : encs.sum = ag.core.encs.sum) :
    a.aggregationVerify S m rng { ag with core := { ag.core with encs := encs } } = .ok rng' := by
  rw [aggregationVerify_iff S hS] at h ⊢
  obtain ⟨h1, h2, rng1, h3, ⟨pk, h4, h5⟩, h6, h7, h8⟩ := h
  refine ⟨by simp only; rw [hl, h1], h2, rng1, h3, ⟨pk, h4, ?_⟩, h6, h7, h8⟩
  unfold Spec.BatchEq at h5 ⊢
  simp only
  rw [hsum]
  exact h5

/-- **C21** (zero draw). When the drawn scalar is zero the pairing check accepts any encryptions whatsoever. -/
theorem C21_zero (S : Suite r G1 G2 K) (hS : PairLaws S) (g2 : G2) (pk : ℕ → G1) (core : PVSSCore G1 G2) :
    Spec.BatchEq S g2 pk core 0 := by
  unfold Spec.BatchEq
  simp [hS.zero_left]

/-- **C21** is false: a transcript with wrong encryptions for parties 0 and 1 is accepted for every random stream. -/
theorem C21_false : ¬ C21_claim (Toy.suite 13) .checked Toy.agg := by
  intro hc
  obtain ⟨ag, hcore, -, h⟩ := Toy.acceptedAgg
  have h1 := hc { ag with core := { ag.core with encs := [15, 26, 44, 65] } } fun rng => by
    obtain ⟨rng', h⟩ := h rng
    exact ⟨rng', C21_forge (Toy.suite 13) (Toy.pairLaws 13) .checked Toy.agg rng rng' ag h [15, 26, 44, 65]
      (by rw [hcore]; rfl) (by rw [hcore]; decide)⟩
  obtain ⟨q, hq, e, c, he, hc, hp⟩ := h1 0 (by decide)
  have : Toy.agg.participants.get 0 = some (Toy.participant 0 (Toy.sk 0)) := rfl
  rw [this] at hq
  cases hq
  simp only [hcore] at hc he
  cases hc
  cases he
  revert hp
  decide

theorem prod_map_pow' {ι : Type} (l : List ι) (f : ι → K) (k : ℕ) : (l.map fun i => f i ^ k).prod = (l.map f).prod ^ k := by
  induction l with
  | nil => simp
  | cons a l ih => simp [ih, mul_pow]

/-- **C21** (proved part): unless the drawn scalar is zero (one value out of `r`), acceptance implies the *summed* equation
`∏ e(pk_i, comm_i) = e(∑ enc_i, g2)`. Missing for the full claim: correctness of the individual encryptions, which does not
follow because one scalar is used for all parties. -/
theorem C21_partial (S : Suite r G1 G2 K) (hS : PairLaws S) (m : Mode) (a : Aggregator r G1 G2) (rng rng' : Rng r)
    (ag : AggShare r G1 G2) (ht : a.config.degree + 2 ≤ a.config.numParticipants)
    (hn : a.config.numParticipants ≤ r) (hcap : a.config.numParticipants < 2 ^ 58)
    (hρ : rng (a.config.numParticipants - a.config.degree - 1) ≠ 0)
    (h : a.aggregationVerify S m rng ag = .ok rng') :
    ∃ pk, Spec.KeyTable a.participants a.config.numParticipants pk ∧
      (ag.core.comms.zipIdx.map fun ci => S.pair (pk ci.2) ci.1).prod = S.pair ag.core.encs.sum a.config.srs.g2 := by
  rw [C20 S hS m a rng rng' ag ht hn hcap] at h
  obtain ⟨-, -, -, ⟨pk, hk, hb⟩, -⟩ := h
  refine ⟨pk, hk, ?_⟩
  generalize rng (a.config.numParticipants - a.config.degree - 1) = ρ at hρ hb
  have key : ∀ P Q, S.pair (ρ • P) Q ^ (ρ⁻¹).val = S.pair P Q := by
    intro P Q
    rw [← hS.nsmul_left]
    have := mulRepr_eq_smul (ρ • P) (ρ⁻¹)
    unfold mulRepr at this
    rw [this, smul_smul, inv_mul_cancel₀ hρ, one_smul]
  unfold Spec.BatchEq at hb
  have := congrArg (fun x : K => x ^ (ρ⁻¹).val) hb
  rw [key, ← prod_map_pow'] at this
  simpa only [key] using this

/-- Non-vacuity of C21_forge and C21_partial: an accepted transcript, a stream with non-zero scalar, other encryptions of equal
sum. -/
example : (∃ ag rng', Toy.agg.aggregationVerify (Toy.suite 13) .checked (fun _ => 3) ag = .ok rng' ∧
    [15, 26, 44, 65].sum = ag.core.encs.sum ∧ [15, 26, 44, 65] ≠ ag.core.encs) ∧ (3 : ZMod 13) ≠ 0 := by
  obtain ⟨ag, hcore, -, h⟩ := Toy.acceptedAgg
  obtain ⟨rng', h⟩ := h fun _ => 3
  exact ⟨⟨ag, rng', h, by rw [hcore]; decide, by rw [hcore]; decide⟩, by decide⟩

end Verif
