import Verif.Props.Predetermined

/-!
# Session, dealer and statement in the hashes: C121

C17, C74 and C75 are false of the code: the signature of a share covers its decomposition proof only, and neither the proof nor the
signature depends on session or dealer. Here the same functions with these data hashed as well, and a second signature over the whole
share.
-/

open Finset Polynomial

namespace Verif

set_option linter.unusedSectionVars false

variable {r : ℕ} [Fact r.Prime] {G1 G2 K : Type}
  [AddCommGroup G1] [DecidableEq G1] [AddCommGroup G2] [DecidableEq G2] [CommMonoid K] [DecidableEq K]
  [Module (ZMod r) G1] [Module (ZMod r) G2]

/-! ### The functions with the longer hash input -/

/-- A session and a dealer in it. -/
structure Spec.Seat (G1 G2 : Type) where
  config : Config G1 G2
  participants : BMap (Participant G1)
  id : ℕ

/-- The numbers fit in 64 bits. -/
def Spec.Seat.Fits (t : Spec.Seat G1 G2) : Prop :=
  t.config.degree < 2 ^ 64 ∧ t.config.numParticipants < 2 ^ 64 ∧ t.participants.entries.length < 2 ^ 64 ∧
    (∀ e ∈ t.participants.entries, e.1 < 2 ^ 64 ∧ e.2.id < 2 ^ 64) ∧ t.id < 2 ^ 64

/-- Its serialization. -/
def Spec.Seat.enc (S : Suite r G1 G2 K) (t : Spec.Seat G1 G2) : List UInt8 :=
  (Config.codec S).enc t.config ++ ((Codec.bmap (Participant.codec S)).enc t.participants ++ Codec.u64.enc t.id)

/-- `hash_to_field` with more bytes in front of the message. -/
def Spec.tagHash (E : HashEnv r) (τ : List UInt8) : HashEnv r := { E with stream := fun p msg => E.stream p (τ ++ msg) }

/-- The suite in which the hash of the discrete-log proof gets seat and statement, and the digest of the decomposition proof the seat. -/
def Spec.seated (S : Suite r G1 G2 K) (t : Spec.Seat G1 G2) (gs : G2) : Suite r G1 G2 K :=
  { S with
    hash := Spec.tagHash S.hash (t.enc S ++ S.c2.codec.enc gs)
    shake := fun x => S.shake (0 :: (t.enc S ++ x)) }

/-- What the signature on the decomposition proof signs (the digest of). -/
def Spec.proofMsg (S : Suite r G1 G2 K) (t : Spec.Seat G1 G2) (d : DecompProof r G2) : List UInt8 :=
  0 :: (t.enc S ++ (DecompProof.codec S).enc d)

/-- What the second signature signs. -/
def Spec.shareMsg (S : Suite r G1 G2 K) (t : Spec.Seat G1 G2) (core : PVSSCore G1 G2) (d : DecompProof r G2) : List UInt8 :=
  1 :: (t.enc S ++ ((PVSSCore.codec S).enc core ++ (DecompProof.codec S).enc d))

/-- The seat a share claims at an aggregator. -/
def Spec.seatOf (a : Aggregator r G1 G2) (id : ℕ) : Spec.Seat G1 G2 := ⟨a.config, a.participants, id⟩

/-- `share_verify` (aggregator.rs:102-135) with these hashes, and the second signature. -/
def Spec.AcceptsSigned (S : Suite r G1 G2 K) (m : Mode) (a : Aggregator r G1 G2) (rng : Rng r) (sh : PVSSShare r G1 G2)
    (outer : Signature) : Prop :=
  let t := Spec.seatOf a sh.participantId
  (∃ rng', a.shareVerify (Spec.seated S t sh.signedProof.decompProof.gs) m rng sh = .ok rng') ∧
  ∃ q, a.participants.get sh.participantId = some q ∧
    outer.verify S.ed ⟨S.shake (Spec.shareMsg S t sh.core sh.signedProof.decompProof)⟩ q.pkEd = .ok ()

/-- `share` (node.rs:129-161) with these hashes: the decomposition proof is about the first coefficient, `rng 0`. -/
noncomputable def Spec.shareSigned (S : Suite r G1 G2 K) (m : Mode) (nd : Node r G1 G2) (rng : Rng r) :
    Res PVSSError (PVSSShare r G1 G2 × Rng r) :=
  nd.share (Spec.seated S (Spec.seatOf nd.aggregator nd.dealer.participant.id) (rng 0 • nd.aggregator.config.srs.g2)) m rng

/-! ### Encodings -/

theorem seat_lawful {S : Suite r G1 G2 K} {n1 n2 nf : ℕ} (h : CodecLaws S n1 n2 nf) {t t' : Spec.Seat G1 G2} (ht : t.Fits) (ht' : t'.Fits)
    {x y : List UInt8} (he : t.enc S ++ x = t'.enc S ++ y) : t = t' ∧ x = y := by
  unfold Spec.Seat.enc at he
  simp only [List.append_assoc] at he
  obtain ⟨e1, he⟩ := (config_lawful h).append_inj ⟨ht.1, ht.2.1⟩ ⟨ht'.1, ht'.2.1⟩ he
  obtain ⟨e2, he⟩ := (Codec.bmap_lawful (participant_lawful h)).append_inj ⟨ht.2.2.1, ht.2.2.2.1⟩ ⟨ht'.2.2.1, ht'.2.2.2.1⟩ he
  obtain ⟨e3, he⟩ := Codec.u64_lawful.append_inj ht.2.2.2.2 ht'.2.2.2.2 he
  refine ⟨?_, he⟩
  cases t; cases t'
  simp only at e1 e2 e3
  rw [e1, e2, e3]

theorem proofMsg_inj {S : Suite r G1 G2 K} {n1 n2 nf : ℕ} (h : CodecLaws S n1 n2 nf) {t t' : Spec.Seat G1 G2} (ht : t.Fits) (ht' : t'.Fits)
    {d d' : DecompProof r G2} (he : Spec.proofMsg S t d = Spec.proofMsg S t' d') : t = t' ∧ d = d' := by
  obtain ⟨e1, e2⟩ := seat_lawful h ht ht' (List.cons.inj he).2
  exact ⟨e1, (decompProof_lawful h).inj e2⟩

theorem shareMsg_inj {S : Suite r G1 G2 K} {n1 n2 nf : ℕ} (h : CodecLaws S n1 n2 nf) {t t' : Spec.Seat G1 G2} (ht : t.Fits) (ht' : t'.Fits)
    {c c' : PVSSCore G1 G2} (hc : c.encs.length < 2 ^ 64 ∧ c.comms.length < 2 ^ 64) (hc' : c'.encs.length < 2 ^ 64 ∧ c'.comms.length < 2 ^ 64)
    {d d' : DecompProof r G2} (he : Spec.shareMsg S t c d = Spec.shareMsg S t' c' d') : t = t' ∧ c = c' ∧ d = d' := by
  obtain ⟨e1, e2⟩ := seat_lawful h ht ht' (List.cons.inj he).2
  obtain ⟨e2, e3⟩ := (core_lawful h).append_inj hc hc' e2
  exact ⟨e1, e2, (decompProof_lawful h).inj e3⟩

/-! ### What a dealer has signed -/

/-- The shares a dealer has dealt, with the sessions, and so the messages it has signed. -/
def Spec.signed (S : Suite r G1 G2 K) (L : List (Spec.Seat G1 G2 × PVSSCore G1 G2 × DecompProof r G2)) : List (List UInt8) :=
  L.flatMap fun x => [Spec.proofMsg S x.1 x.2.2, Spec.shareMsg S x.1 x.2.1 x.2.2]

/-- A signature on a digest that is not the digest of a signed message. -/
def Spec.Forged (S : Suite r G1 G2 K) (pk : PublicKey) (L : List (List UInt8)) : Prop :=
  ∃ msg sig, S.ed.verifyStrict pk.bytes (S.shake msg).1 sig = true ∧ ∀ x ∈ L, S.shake x ≠ S.shake msg

/-- Another message with the digest of a signed one. -/
def Spec.Collides (S : Suite r G1 G2 K) (L : List (List UInt8)) : Prop := ∃ x ∈ L, ∃ msg, msg ≠ x ∧ S.shake msg = S.shake x

theorem signed_or {S : Suite r G1 G2 K} {pk : PublicKey} {L : List (List UInt8)} {msg : List UInt8} {sig : Bytes 64}
    (h : S.ed.verifyStrict pk.bytes (S.shake msg).1 sig = true) : msg ∈ L ∨ Spec.Forged S pk L ∨ Spec.Collides S L := by
  by_cases h1 : ∀ x ∈ L, S.shake x ≠ S.shake msg
  · exact Or.inr (Or.inl ⟨msg, sig, h, h1⟩)
  · push Not at h1
    obtain ⟨x, hx, he⟩ := h1
    by_cases h2 : msg = x
    · exact Or.inl (h2 ▸ hx)
    · exact Or.inr (Or.inr ⟨x, hx, msg, h2, he.symm⟩)

/-- **C121** (shares, repairs C17 and C74). Whoever brings an aggregator to accept a share that the registered dealer has not dealt in just
this session, with just these vectors and this decomposition proof, has forged an EdDSA signature of the dealer or found a message with the
digest of one the dealer has signed. -/
theorem C121_share {S : Suite r G1 G2 K} {n1 n2 nf : ℕ} (h : CodecLaws S n1 n2 nf) (hS : PairLaws S) (m : Mode) (a : Aggregator r G1 G2)
    (rng : Rng r) (sh : PVSSShare r G1 G2) (outer : Signature) (q : Participant G1)
    (hq : a.participants.get sh.participantId = some q) (hfit : (Spec.seatOf a sh.participantId).Fits)
    (L : List (Spec.Seat G1 G2 × PVSSCore G1 G2 × DecompProof r G2))
    (hL : ∀ x ∈ L, x.1.Fits ∧ x.2.1.encs.length < 2 ^ 64 ∧ x.2.1.comms.length < 2 ^ 64)
    (hacc : Spec.AcceptsSigned S m a rng sh outer) :
    (Spec.seatOf a sh.participantId, sh.core, sh.signedProof.decompProof) ∈ L ∨
      Spec.Forged S q.pkEd (Spec.signed S L) ∨ Spec.Collides S (Spec.signed S L) := by
  obtain ⟨⟨rng', hv⟩, q', hq', ho⟩ := hacc
  obtain rfl : q' = q := Option.some.inj (hq'.symm.trans hq)
  have hS' : PairLaws (Spec.seated S (Spec.seatOf a sh.participantId) sh.signedProof.decompProof.gs) :=
    ⟨hS.add_left, hS.add_right, hS.zero_left, hS.zero_right, hS.nondeg⟩
  obtain ⟨-, -, -, he, hc, -⟩ := (shareVerify_iff _ hS' m a rng rng' sh).1 hv
  have hlen : sh.core.encs.length < 2 ^ 64 ∧ sh.core.comms.length < 2 ^ 64 := by
    rw [he, hc]; exact ⟨hfit.2.1, hfit.2.1⟩
  obtain ⟨-, -, hsig⟩ := (sigVerify_iff ..).1 ho
  rcases signed_or (L := Spec.signed S L) hsig with hm | hm
  · left
    obtain ⟨x, hx, hm⟩ := List.mem_flatMap.1 hm
    simp only [List.mem_cons, List.not_mem_nil, or_false] at hm
    rcases hm with hm | hm
    · exact absurd (List.cons.inj hm).1 (by decide)
    · obtain ⟨h1, h2, h3⟩ := shareMsg_inj h hfit (hL x hx).1 hlen (hL x hx).2 hm
      obtain ⟨x1, x2, x3⟩ := x
      simp only at h1 h2 h3
      rw [h1, h2, h3]
      exact hx
  · exact Or.inr hm

/-- **C121** (contributions, repairs C74 for transcripts). The same for a listed contribution: session, id and decomposition proof are those
of a share that the dealer has dealt; and its challenge is the hash of seat, statement, generator and commitment. -/
theorem C121_entry {S : Suite r G1 G2 K} {n1 n2 nf : ℕ} (h : CodecLaws S n1 n2 nf) (t : Spec.Seat G1 G2) (ht : t.Fits) (g2 : G2)
    (pk : PublicKey) (x : SignedProof r G2) (L : List (Spec.Seat G1 G2 × PVSSCore G1 G2 × DecompProof r G2)) (hL : ∀ y ∈ L, y.1.Fits)
    (hx : Spec.SignedOk (Spec.seated S t x.decompProof.gs) g2 pk x) :
    ((∃ y ∈ L, y.1 = t ∧ y.2.2 = x.decompProof) ∨ Spec.Forged S pk (Spec.signed S L) ∨ Spec.Collides S (Spec.signed S L)) ∧
    (hashToField S.hash (ascii "DLKNIZK") (t.enc S ++ S.c2.codec.enc x.decompProof.gs ++
      (S.c2.codec.enc g2 ++ S.c2.codec.enc x.decompProof.proof.1)) : Res NIZKError _) = .ok x.decompProof.proof.2.1 := by
  refine ⟨?_, hx.challenge⟩
  have hsig : S.ed.verifyStrict pk.bytes (S.shake (Spec.proofMsg S t x.decompProof)).1
      (Bytes.append32 x.signature.part1 x.signature.part2) = true := hx.signature
  rcases signed_or (L := Spec.signed S L) hsig with hm | hm
  · left
    obtain ⟨y, hy, hm⟩ := List.mem_flatMap.1 hm
    simp only [List.mem_cons, List.not_mem_nil, or_false] at hm
    rcases hm with hm | hm
    · obtain ⟨h1, h2⟩ := proofMsg_inj h ht (hL y hy) hm
      exact ⟨y, hy, h1.symm, h2.symm⟩
    · exact absurd (List.cons.inj hm).1 (by decide)
  · exact Or.inr hm

/-- **C121** (dealing). With these hashes dealing succeeds exactly when it does with those of the code (C73): the table has all parties, the
dealer is one of them with a consistent key pair, and not all coefficients drawn are zero. -/
theorem C121_deal (S : Suite r G1 G2 K) (hH : HashTotal S.hash) (m : Mode) (nd : Node r G1 G2) (rng : Rng r)
    (ht : nd.aggregator.config.degree + 1 < 2 ^ 58) :
    (∃ x, Spec.shareSigned S m nd rng = .ok x) ↔
      1 ≤ nd.aggregator.config.numParticipants ∧
      (∀ i < nd.aggregator.config.numParticipants, nd.aggregator.participants.get i ≠ none) ∧
      nd.dealer.participant.id < nd.aggregator.config.numParticipants ∧ (∃ k ≤ nd.aggregator.config.degree, rng k ≠ 0) ∧
      S.ed.keypairOk nd.dealer.skEd.bytes = true :=
  (C73 (Spec.seated S _ _) (fun p _ => hH p _) m nd rng ht).1

/-- **C121** (honest use). A share dealt with these hashes is accepted by every aggregator of the session, together with the signature that
the dealer makes on the whole. -/
theorem C121_honest (S : Suite r G1 G2 K) (hS : PairLaws S) (hE : EdLaws S.ed) (m : Mode) (nd : Node r G1 G2)
    (hd : Spec.GoodDealer S.ed nd) (rng rng' : Rng r) (sh : PVSSShare r G1 G2) (h : Spec.shareSigned S m nd rng = .ok (sh, rng'))
    (a : Aggregator r G1 G2) (hc : a.config = nd.aggregator.config) (hp : a.participants = nd.aggregator.participants)
    (hn : a.config.numParticipants ≤ r) (hcap : a.config.numParticipants < 2 ^ 58)
    (ht : a.config.degree + 2 ≤ a.config.numParticipants) (rngV : Rng r) :
    ∃ outer, (Signature.new S.ed ⟨S.shake (Spec.shareMsg S (Spec.seatOf a sh.participantId) sh.core sh.signedProof.decompProof)⟩
      nd.dealer.skEd : Res PVSSError _) = .ok outer ∧ Spec.AcceptsSigned S m a rngV sh outer := by
  set t := Spec.seatOf nd.aggregator nd.dealer.participant.id with hseat
  set S' := Spec.seated S t (rng 0 • nd.aggregator.config.srs.g2) with hS'
  obtain ⟨hid, p, hg⟩ := share_good S' hE m nd hd rng rng' sh h
  obtain ⟨-, -, hgs, -⟩ := C73_contents S' m nd rng rng' sh
    (fun i => match nd.aggregator.participants.get i with | some q => q.pkSig | none => 0)
    (fun i q hq => by simp [hq]) (by rw [← hc]; omega) h
  have e1 : Spec.seatOf a sh.participantId = t := by rw [hseat, Spec.seatOf, Spec.seatOf, hc, hp, hid]
  obtain ⟨seed, q, hsk, hget, hpk⟩ := hd
  obtain ⟨outer, h1, h2, -⟩ := C58_sign (ε := PVSSError) S.ed hE seed
    ⟨S.shake (Spec.shareMsg S (Spec.seatOf a sh.participantId) sh.core sh.signedProof.decompProof)⟩
  unfold generateKeypair at h1 h2
  refine ⟨outer, by rw [hsk]; exact h1, ?_, q, by rw [hp, hid]; exact hget, by rw [hpk]; exact h2⟩
  rw [e1, hgs]
  rw [← hc, ← hp] at hg
  exact shareVerify_good S' ⟨hS.add_left, hS.add_right, hS.zero_left, hS.zero_right, hS.nondeg⟩ m a rngV sh p hg hn hcap (Or.inl ht)

/-! ### Copies and related contributions -/

theorem hashToField_tag {ε : Type} (E : HashEnv r) (τ persona msg : List UInt8) :
    hashToField (ε := ε) (Spec.tagHash E τ) persona msg = hashToField E persona (τ ++ msg) := rfl

open Classical in
/-- **C121** (copies, repairs C75). An adversary that has seen a share with `gs = H` makes `k` look-ups and then takes a seat
(any for which the challenge does not stand where that of the share does, so any other seat) with a decomposition proof whose `gs` is `α H + β g`, `α ≠ 0` (`α = 1`, `β = 0` for a copy). For all but a
`(k + 1) (d + 1) / r` fraction of the tables of the hash function, when the proof verifies then for more than `d` of the `r` answers at its
challenge the second run gives the logarithm of `H`, the secret of the dealer of `H`. -/
theorem C121_copy {S : Suite r G1 G2 K} {n1 n2 nf : ℕ} (h : CodecLaws S n1 n2 nf) (g H : G2) (D : Finset (List UInt8))
    (env : (D → ZMod r) → HashEnv r)
    (henv : ∀ f (x : D), hashToField (ε := NIZKError) (env f) DLK.persona x.1 = .ok (f x))
    (k : ℕ) (query : List (ZMod r) → D) (out : List (ZMod r) → Spec.Seat G1 G2 × DecompProof r G2 × ZMod r × ZMod r)
    (hout : ∀ l, (out l).1.Fits)
    (hD : ∀ l, (out l).1.enc S ++ S.c2.codec.enc (out l).2.1.gs ++ (S.c2.codec.enc g ++ S.c2.codec.enc (out l).2.1.proof.1) ∈ D) (d : ℕ) :
    let run : (D → ZMod r) → Spec.Seat G1 G2 × DecompProof r G2 × ZMod r × ZMod r := fun f => out (Spec.answers query f k)
    let rerun : (D → ZMod r) → ZMod r → Spec.Seat G1 G2 × DecompProof r G2 × ZMod r × ZMod r := fun f c =>
      run (Function.update f ⟨_, hD (Spec.answers query f k)⟩ c)
    r * (univ.filter fun f : D → ZMod r =>
      let (t, x, α, β) := run f
      α ≠ 0 ∧ x.gs = α • H + β • g ∧
      DLK.verify S.c2 (Spec.tagHash (env f) (t.enc S ++ S.c2.codec.enc x.gs)) g x.gs x.proof = .ok () ∧
      (univ.filter fun c : ZMod r => H = ((Spec.logOf x.proof (rerun f c).2.1.proof - β) * α⁻¹) • g).card ≤ d).card ≤
        (k + 1) * (d + 1) * Fintype.card (D → ZMod r) := by
  intro run rerun
  have hx := extract_gen (τ := Spec.Seat G1 G2)
    (fun t s a => t.enc S ++ S.c2.codec.enc s ++ (S.c2.codec.enc g ++ S.c2.codec.enc a)) Spec.Seat.Fits
    (fun t s a t' s' a' ht ht' he => by
      simp only [List.append_assoc] at he
      obtain ⟨-, he⟩ := seat_lawful h ht ht' he
      obtain ⟨hs, he⟩ := h.c2.append_inj he
      exact ⟨hs, h.c2.inj (List.append_cancel_left he)⟩) g D env henv k query
    (fun l => some ((out l).1, (out l).2.1.gs, (out l).2.1.proof)) (fun l => ⟨_, hD l⟩)
    (fun l t s p he => by
      obtain ⟨rfl, -⟩ := Prod.mk.inj (Option.some.inj he)
      exact hout l)
    (fun l t s p he => by
      obtain ⟨rfl, he'⟩ := Prod.mk.inj (Option.some.inj he)
      obtain ⟨rfl, rfl⟩ := Prod.mk.inj he'
      rfl) d
  refine le_trans (Nat.mul_le_mul_left r (card_le_card ?_)) hx
  intro f hf
  simp only [mem_filter, mem_univ, true_and] at hf ⊢
  obtain ⟨hα, hgs, hv, hd⟩ := hf
  obtain ⟨h1, h2⟩ := dlk_verify_ok hv
  refine ⟨(run f).1, (run f).2.1.gs, (run f).2.1.proof, rfl, h1, h2, le_trans (card_le_card fun c hc => ?_) hd⟩
  simp only [mem_filter, mem_univ, true_and] at hc ⊢
  obtain ⟨t', s', p', he, hc⟩ := hc
  obtain ⟨-, he⟩ := Prod.mk.inj (Option.some.inj he)
  obtain ⟨-, rfl⟩ := Prod.mk.inj he
  have hc : (run f).2.1.gs = Spec.logOf (run f).2.1.proof (rerun f c).2.1.proof • g := hc
  rw [mul_comm, mul_smul, eq_inv_smul_iff₀ hα, sub_smul, ← hc, hgs, add_sub_cancel_right]

/-! ### Examples -/

/-- Non-vacuity of C121_deal, C121_honest and C121_share: party 2 deals with these hashes, the share is accepted with the second signature by all
aggregators of the session, and it is among the dealt ones. -/
example : ∃ sh rng' outer, Spec.shareSigned (Toy.suite 13) .checked (Toy.node 2) (fun _ => 5) = .ok (sh, rng') ∧
    (∀ rngV, Spec.AcceptsSigned (Toy.suite 13) .checked (Toy.node 2).aggregator rngV sh outer) ∧
    (Spec.seatOf (Toy.node 2).aggregator sh.participantId).Fits ∧ sh.participantId = 2 := by
  obtain ⟨⟨sh, rng'⟩, hsh⟩ := (C121_deal (Toy.suite 13) (Toy.hashTotal 13) .checked (Toy.node 2) (fun _ => 5) (by decide)).2
    ⟨by decide, by decide, by decide, ⟨0, by decide, by decide⟩, by decide⟩
  have hx : (Toy.node 2).share (Spec.seated (Toy.suite 13) (Spec.seatOf (Toy.node 2).aggregator 2) (5 : ZMod 13)) .checked
    (fun _ => 5) = .ok (sh, rng') := hsh
  have hid := (share_good _ Toy.edLaws .checked (Toy.node 2) (Toy.goodDealer 2 (by decide)) _ rng' sh hx).1
  have hh := C121_honest (Toy.suite 13) (Toy.pairLaws 13) Toy.edLaws .checked (Toy.node 2) (Toy.goodDealer 2 (by decide)) _ rng' sh hsh
    (Toy.node 2).aggregator rfl rfl (by decide) (by decide) (by decide)
  obtain ⟨outer, ho, -⟩ := hh (fun _ => 0)
  refine ⟨sh, rng', outer, hsh, fun rngV => ?_, ?_, hid⟩
  · obtain ⟨outer', ho', hacc⟩ := hh rngV
    rw [ho] at ho'
    cases ho'
    exact hacc
  · rw [hid]
    exact ⟨by decide, by decide, by decide, by decide, by decide⟩

/-- Non-vacuity of C121_copy: whoever knows the logarithm 5 of `H` can take seat 3 with the same `gs`, and is convincing for every table. -/
example : ∃ (D : Finset (List UInt8)) (query : List (ZMod 13) → D)
    (out : List (ZMod 13) → Spec.Seat (ZMod 13) (ZMod 13) × DecompProof 13 (ZMod 13) × ZMod 13 × ZMod 13),
    (∀ f (x : D), hashToField (ε := NIZKError) (Toy.tableHash D f) DLK.persona x.1 = .ok (f x)) ∧
    (∀ l, (out l).1.Fits ∧ (out l).1.id = 3) ∧
    (∀ l, (out l).1.enc (Toy.suite 13) ++ (Toy.suite 13).c2.codec.enc (out l).2.1.gs ++
      ((Toy.suite 13).c2.codec.enc 1 ++ (Toy.suite 13).c2.codec.enc (out l).2.1.proof.1) ∈ D) ∧
    ∀ f, let x := out (Spec.answers query f 1)
      x.2.2.1 ≠ 0 ∧ x.2.1.gs = x.2.2.1 • (5 : ZMod 13) + x.2.2.2 • 1 ∧
      DLK.verify (Toy.suite 13).c2 (Spec.tagHash (Toy.tableHash D f) (x.1.enc (Toy.suite 13) ++ (Toy.suite 13).c2.codec.enc x.2.1.gs))
        1 x.2.1.gs x.2.1.proof = .ok () := by
  let t : Spec.Seat (ZMod 13) (ZMod 13) := Spec.seatOf (Toy.node 2).aggregator 3
  let y := t.enc (Toy.suite 13) ++ (Toy.suite 13).c2.codec.enc 5 ++ ((Toy.suite 13).c2.codec.enc 1 ++ (Toy.suite 13).c2.codec.enc 3)
  have hy : y ∈ ({y} : Finset (List UInt8)) := Finset.mem_singleton_self _
  have ht : ∀ f (z : ({y} : Finset (List UInt8))),
      hashToField (ε := NIZKError) (Toy.tableHash {y} f) DLK.persona z.1 = .ok (f z) :=
    fun f z => Toy.tableHash_eq (by decide) {y} f z
  have hfit : t.Fits := ⟨by decide, by decide, by decide, by decide, by decide⟩
  refine ⟨{y}, fun _ => ⟨y, hy⟩, fun l => (t, ⟨(3, l.headD 0, 3 - 5 * l.headD 0), 5⟩, 1, 0), ht,
    fun l => ⟨hfit, rfl⟩, fun l => hy, fun f => ⟨one_ne_zero, by simp, ?_⟩⟩
  refine ((C39 _ _ _ _ _ _ _ (f ⟨y, hy⟩) ((hashToField_tag ..).trans (ht f ⟨y, hy⟩))).1).2 ⟨rfl, ?_⟩
  show (3 - 5 * f ⟨y, hy⟩) • (1 : ZMod 13) + f ⟨y, hy⟩ • 5 = 3
  simp only [smul_eq_mul]
  ring

end Verif
