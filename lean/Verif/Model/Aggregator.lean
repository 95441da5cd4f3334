import Verif.Model.Pvss

/-!
# Aggregator and node — /repo/src/modified_scrape/aggregator.rs, /repo/src/modified_scrape/node.rs
-/

namespace Verif

variable {r : ℕ} [Fact r.Prime] {G1 G2 K : Type}
  [AddCommGroup G1] [DecidableEq G1] [AddCommGroup G2] [DecidableEq G2] [CommMonoid K] [DecidableEq K]

/-- `PVSSAggregator { config, participants, aggregated_tx }`. aggregator.rs:29-38 (`scheme_sig` is never read). -/
structure Aggregator (r : ℕ) (G1 G2 : Type) where
  config : Config G1 G2
  participants : BMap (Participant G1)
  tx : AggShare r G1 G2

/-- `PVSSAggregator::new`. aggregator.rs:47-61 -/
def Aggregator.new (cfg : Config G1 G2) (ps : BMap (Participant G1)) : Aggregator r G1 G2 :=
  ⟨cfg, ps, AggShare.empty cfg.degree cfg.numParticipants⟩

/-- `E::product_of_pairings`. -/
def prodPairings (S : Suite r G1 G2 K) (pairs : List (G1 × G2)) : K :=
  (pairs.map fun p => S.pair p.1 p.2).prod

/-- `core_verify`. aggregator.rs:64-97 -/
def Aggregator.coreVerify (m : Mode) (a : Aggregator r G1 G2) (rng : Rng r) (d : DecompProof r G2)
    (core : PVSSCore G1 G2) : Res PVSSError (Rng r) :=
  if core.encs.length ≠ a.config.numParticipants ∨ core.comms.length ≠ a.config.numParticipants then
    .err (.MismatchedCommitsEncryptionsParticipantsError core.encs.length core.comms.length
      a.config.numParticipants)
  else do
    let rng ← (ensureDegree m rng core.comms a.config.degree).orErr .DualCodeError
    let point ← (lagrangeSimple (r := r) m core.comms a.config.degree).unwrap
    if point ≠ d.gs then .err .GSCheckError else .ok rng

/-- `share_verify`. aggregator.rs:102-135 -/
noncomputable def Aggregator.shareVerify (S : Suite r G1 G2 K) (m : Mode) (a : Aggregator r G1 G2) (rng : Rng r)
    (sh : PVSSShare r G1 G2) : Res PVSSError (Rng r) := do
  let id := sh.participantId
  let p ← Res.ofOption (a.participants.get id) (.InvalidParticipantId id)
  let comm ← idx sh.core.comms id
  let enc ← idx sh.core.encs id
  if prodPairings S [(p.pkSig, comm), (-enc, a.config.srs.g2)] ≠ 1 then .err .EncryptionCorrectnessError
  else do
    let rng ← a.coreVerify m rng sh.signedProof.decompProof sh.core
    (sh.signedProof.verify S a.config p.pkEd).orErr .InvalidSignedProofError
    .ok rng

/-- One iteration of the loop building `epsilon` and `pairs`. aggregator.rs:193-197 -/
def Aggregator.pairStep (a : Aggregator r G1 G2) (core : PVSSCore G1 G2) (rs : List (ZMod r))
    (st : G1 × List (G1 × G2)) (i : ℕ) : Res PVSSError (G1 × List (G1 × G2)) := do
  let e ← idx core.encs i
  let ri ← idx rs i
  let p ← Res.unwrapOpt (a.participants.get i)
  let c ← idx core.comms i
  .ok (st.1 + mulRepr e ri, st.2 ++ [(mulRepr p.pkSig ri, c)])

/-- One iteration of the loop over the contributions. aggregator.rs:215-223.
`Scalar::from(weight)` is the cast of the 64-bit weight. -/
noncomputable def Aggregator.contribStep (S : Suite r G1 G2 K) (a : Aggregator r G1 G2) (tot : G2)
    (e : ℕ × (SignedProof r G2 × UInt64)) : Res PVSSError G2 := do
  let party ← Res.unwrapOpt (a.participants.get e.1)
  (e.2.1.verify S a.config party.pkEd).orErr .InvalidSignedProofError
  .ok (tot + mulRepr e.2.1.decompProof.gs ((e.2.2.toNat : ℕ) : ZMod r))

/-- `aggregation_verify`. aggregator.rs:140-233. Line 188 draws ONE scalar and repeats it `n` times
(`vec![E::Fr::rand(rng); n]`). -/
noncomputable def Aggregator.aggregationVerify (S : Suite r G1 G2 K) (m : Mode) (a : Aggregator r G1 G2)
    (rng : Rng r) (ag : AggShare r G1 G2) : Res PVSSError (Rng r) :=
  let n := a.config.numParticipants
  if ag.core.encs.length ≠ n ∨ ag.core.comms.length ≠ n then
    .err (.MismatchedCommitsEncryptionsParticipantsError ag.core.encs.length ag.core.comms.length n)
  else do
    let rng ← (ensureDegree m rng ag.core.comms a.config.degree).orErr .DualCodeError
    let rs := List.replicate n (rng 0)
    let rng := rng.drop 1
    let (epsilon, pairs) ← loop (a.pairStep ag.core rs) (0, []) (List.range n)
    if prodPairings S (pairs ++ [(-epsilon, a.config.srs.g2)]) ≠ 1 then .err .EncryptionCorrectnessError
    else do
      let point ← (lagrangeSimple (r := r) m ag.core.comms a.config.degree).unwrap
      let gsTotal ← loop (a.contribStep S) 0 ag.contributions.entries
      if gsTotal ≠ point then .err .AggregationReconstructionMismatchError else .ok rng

/-- `receive_share`. aggregator.rs:237-250. Returns the call's outcome and the aggregator afterwards. -/
noncomputable def Aggregator.receiveShare (S : Suite r G1 G2 K) (m : Mode) (a : Aggregator r G1 G2) (rng : Rng r)
    (sh : PVSSShare r G1 G2) : Res PVSSError Unit × Aggregator r G1 G2 :=
  match (a.shareVerify S m rng sh).unwrap (ε' := PVSSError) with
  | .ok _ =>
    match a.tx.aggregatePvssShare m sh with
    | .ok tx => (.ok (), { a with tx := tx })
    | .err e => (.err e, a)
    | .panic => (.panic, a)
    | .diverge => (.diverge, a)
  | .err e => (.err e, a)
  | .panic => (.panic, a)
  | .diverge => (.diverge, a)

/-- `receive_aggregated_share`. aggregator.rs:254-267 -/
noncomputable def Aggregator.receiveAggregatedShare (S : Suite r G1 G2 K) (m : Mode) (a : Aggregator r G1 G2)
    (rng : Rng r) (ag : AggShare r G1 G2) : Res PVSSError Unit × Aggregator r G1 G2 :=
  match (a.aggregationVerify S m rng ag).unwrap (ε' := PVSSError) with
  | .ok _ =>
    match (a.tx.aggregate m ag).unwrap (ε' := PVSSError) with
    | .ok tx => (.ok (), { a with tx := tx })
    | .err e => (.err e, a)
    | .panic => (.panic, a)
    | .diverge => (.diverge, a)
  | .err e => (.err e, a)
  | .panic => (.panic, a)
  | .diverge => (.diverge, a)

/-! ## node.rs -/

/-- `Node { aggregator, dealer }`. node.rs:32-39 -/
structure Node (r : ℕ) (G1 G2 : Type) where
  aggregator : Aggregator r G1 G2
  dealer : Dealer r G1

/-- `Node::new`. node.rs:47-62 -/
def Node.new (cfg : Config G1 G2) (dealer : Dealer r G1) (ps : BMap (Participant G1)) : Node r G1 G2 :=
  ⟨Aggregator.new cfg ps, dealer⟩

/-- The integer range `0..=(n-1)` with `usize` subtraction: for `n = 0` it panics (checked) or becomes
`0..=usize::MAX` (wrapping). node.rs:84, 89 -/
def rangeToPred (m : Mode) (n : ℕ) : Res PVSSError (List ℕ) := do
  let k ← subU64 m n 1
  .ok (List.range (k + 1))

/-- `Node::share_pvss`. node.rs:65-125. Returns the core, the secrets and the advanced generator. -/
def Node.sharePvss (m : Mode) (nd : Node r G1 G2) (rng : Rng r) :
    Res PVSSError ((PVSSCore G1 G2 × PVSSShareSecrets r G1) × Rng r) := do
  let t := nd.aggregator.config.degree
  let n := nd.aggregator.config.numParticipants
  let (poly, rng) ← polyRand m rng t
  let evals := (range1 n).map fun (j : ℕ) => polyEval poly (j : ZMod r)
  let js ← rangeToPred m n
  let comms ← collect (fun j => do
      let e ← idx evals j
      .ok (mulRepr nd.aggregator.config.srs.g2 e)) js
  let encs ← collect (fun j => do
      let p ← Res.ofOption (nd.aggregator.participants.get j) (PVSSError.InvalidParticipantId j)
      let e ← idx evals j
      .ok (mulRepr p.pkSig e)) js
  let eMine ← idx evals nd.dealer.participant.id
  let mySecret := mulRepr nd.aggregator.config.srs.g1 eMine
  let p0 ← idx poly 0
  .ok ((⟨encs, comms⟩, ⟨p0, mySecret⟩), rng)

/-- `Node::share`. node.rs:129-161 -/
noncomputable def Node.share (S : Suite r G1 G2 K) (m : Mode) (nd : Node r G1 G2) (rng : Rng r) :
    Res PVSSError (PVSSShare r G1 G2 × Rng r) := do
  let ((core, secrets), rng) ← nd.sharePvss m rng
  let (proof, rng) ← (Decomp.generate S rng nd.aggregator.config secrets.p0).unwrap
  let sig ← Signature.new S.ed (proof.digest S) nd.dealer.skEd
  .ok (⟨nd.dealer.participant.id, core, ⟨proof, sig⟩⟩, rng)

/-! ## Histories -/

/-- A call on an aggregator, with the random stream it will draw from. -/
inductive Op (r : ℕ) (G1 G2 : Type) where
  | share (rng : Rng r) (sh : PVSSShare r G1 G2)
  | agg (rng : Rng r) (ag : AggShare r G1 G2)

/-- Execute one call (a panicking call leaves the state as the Rust code would leave it behind `catch_unwind`). -/
noncomputable def Aggregator.step (S : Suite r G1 G2 K) (m : Mode) (a : Aggregator r G1 G2) :
    Op r G1 G2 → Res PVSSError Unit × Aggregator r G1 G2
  | .share rng sh => a.receiveShare S m rng sh
  | .agg rng ag => a.receiveAggregatedShare S m rng ag

/-- Execute a sequence of calls, whatever their outcomes. -/
noncomputable def Aggregator.run (S : Suite r G1 G2 K) (m : Mode) (a : Aggregator r G1 G2)
    (ops : List (Op r G1 G2)) : Aggregator r G1 G2 :=
  ops.foldl (fun a op => (a.step S m op).2) a

end Verif
