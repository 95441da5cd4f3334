import Verif.Model.Aggregator
import Verif.Model.Schnorr

/-!
# The unit tests of the repository, as programs of the model

/repo/src/nizk/dlk/mod.rs:128-302, /repo/src/nizk/dleq/mod.rs:196-515, /repo/src/signature/schnorr/mod.rs:201-349,
/repo/src/signature/utils/tests.rs, and the `mod test` of /repo/src/modified_scrape/{decomp,pvss,poly,share,node}.rs.

A test function returns or panics (`Outcome`); a test marked `#[should_panic]` succeeds when the function panics. The tests draw
from `thread_rng()`; here the draws are arguments. Scalars come from streams: a test that makes calls for several parties takes
one stream per call, which includes the case of one generator passed from call to call. Points drawn with `rand` and EdDSA seeds
are arguments of their own. `println!` and the timing of the tests are left out.
-/

namespace Verif.Tests

variable {r : ℕ} [Fact r.Prime]

/-- A test function returns nothing or panics. -/
abbrev Outcome : Type := Res Empty Unit

/-- `assert!`, `assert_eq!`. -/
def check {ε : Type} (p : Prop) [Decidable p] : Res ε Unit := if p then .ok () else .panic

/-- `check_serialization`. signature/utils/tests.rs:4-13 -/
def checkSerialization {ε α : Type} [DecidableEq α] (c : Codec α) (x : α) : Res ε Unit := do
  let (y, _) ← (c.dec (c.enc x)).unwrap
  check (x = y)

/-! ## nizk/dlk/mod.rs -/

section Dlk
variable {G : Type} [AddCommGroup G] [DecidableEq G]

/-- `test_simple_nizk`. dlk/mod.rs:149-159 -/
noncomputable def dlkSimple (C : Curve G) (H : HashEnv r) (rng : Rng r) : Outcome := do
  let g := DLK.setup C rng
  let (pair, rng) := DLK.generatePair g rng
  let (proof, _) ← (DLK.prove C H g rng pair.1).unwrap
  (DLK.verify C H g pair.2 proof).unwrap

/-- `test_simple_nizk_wrong_statement`. dlk/mod.rs:174-186 -/
noncomputable def dlkWrongStatement (C : Curve G) (H : HashEnv r) (rng : Rng r) : Outcome := do
  let g := DLK.setup C rng
  let (pair, rng) := DLK.generatePair g rng
  let (proof, rng) ← (DLK.prove C H g rng pair.1).unwrap
  let (pair2, _) := DLK.generatePair g rng
  (DLK.verify C H g pair2.2 proof).unwrap

/-- `test_simple_nizk_malformed_commitment`. dlk/mod.rs:204-218 -/
noncomputable def dlkMalformedCommitment (C : Curve G) (H : HashEnv r) (rng : Rng r) : Outcome := do
  let g := DLK.setup C rng
  let (pair, rng) := DLK.generatePair g rng
  let ((_, c, z), rng) ← (DLK.prove C H g rng pair.1).unwrap
  (DLK.verify C H g pair.2 (mulRepr g (rng 0), c, z)).unwrap

/-- `test_simple_nizk_malformed_challenge`. dlk/mod.rs:233-247 -/
noncomputable def dlkMalformedChallenge (C : Curve G) (H : HashEnv r) (rng : Rng r) : Outcome := do
  let g := DLK.setup C rng
  let (pair, rng) := DLK.generatePair g rng
  let ((gr, _, z), rng) ← (DLK.prove C H g rng pair.1).unwrap
  (DLK.verify C H g pair.2 (gr, rng 0, z)).unwrap

/-- `test_simple_nizk_malformed_response`. dlk/mod.rs:262-276 -/
noncomputable def dlkMalformedResponse (C : Curve G) (H : HashEnv r) (rng : Rng r) : Outcome := do
  let g := DLK.setup C rng
  let (pair, rng) := DLK.generatePair g rng
  let ((gr, c, _), rng) ← (DLK.prove C H g rng pair.1).unwrap
  (DLK.verify C H g pair.2 (gr, c, rng 0)).unwrap

/-- `test_serialization`. dlk/mod.rs:289-300 -/
noncomputable def dlkSerialization (C : Curve G) (F : Codec (ZMod r)) (H : HashEnv r) (rng : Rng r) : Outcome := do
  let g := DLK.setup C rng
  let (pair, rng) := DLK.generatePair g rng
  let (proof, _) ← (DLK.prove C H g rng pair.1).unwrap
  checkSerialization C.codec g
  checkSerialization (Codec.prod F C.codec) pair
  checkSerialization (Codec.prod C.codec (Codec.prod F F)) proof

end Dlk

/-! ## nizk/dleq/mod.rs -/

section Dleq
variable {G G' : Type} [AddCommGroup G] [DecidableEq G] [AddCommGroup G'] [DecidableEq G']

/-- `test_simple_nizk`, `test_benchmark`. dleq/mod.rs:229-241, 502-514 -/
noncomputable def dleqSimple (C : Curve G) (C' : Curve G') (H : HashEnv r) (rng : Rng r) : Outcome := do
  let srs := DLEQ.setup C C' rng
  let (pair, rng) := DLEQ.generatePair srs rng
  let (proof, _) ← (DLEQ.prove C C' H srs rng pair.1).unwrap
  (DLEQ.verify C C' H srs pair.2 proof).unwrap

/-- `test_benchmark_…`: `k` rounds (1 or 64), each with its own draws. dleq/mod.rs:444-499 -/
noncomputable def dleqBenchmark (C : Curve G) (C' : Curve G') (H : HashEnv r) (k : ℕ) (rngs : ℕ → Rng r) : Outcome := do
  loop (fun _ i => dleqSimple C C' H (rngs i)) () (List.range k)
  check (2 + 2 = 4)

/-- `test_simple_nizk_wrong_statement`. dleq/mod.rs:268-280 -/
noncomputable def dleqWrongStatement (C : Curve G) (C' : Curve G') (H : HashEnv r) (rng : Rng r) : Outcome := do
  let srs := DLEQ.setup C C' rng
  let (pair, rng) := DLEQ.generatePair srs rng
  let (proof, rng) ← (DLEQ.prove C C' H srs rng pair.1).unwrap
  let (pair2, _) := DLEQ.generatePair srs rng
  (DLEQ.verify C C' H srs pair2.2 proof).unwrap

/-- `test_simple_nizk_malformed_commitment`. dleq/mod.rs:310-325 -/
noncomputable def dleqMalformedCommitment (C : Curve G) (C' : Curve G') (H : HashEnv r) (rng : Rng r) : Outcome := do
  let srs := DLEQ.setup C C' rng
  let (pair, rng) := DLEQ.generatePair srs rng
  let ((_, c, z), rng) ← (DLEQ.prove C C' H srs rng pair.1).unwrap
  (DLEQ.verify C C' H srs pair.2 ((mulRepr srs.1 (rng 0), mulRepr srs.2 (rng 1)), c, z)).unwrap

/-- `test_simple_nizk_malformed_challenge`. dleq/mod.rs:352-366 -/
noncomputable def dleqMalformedChallenge (C : Curve G) (C' : Curve G') (H : HashEnv r) (rng : Rng r) : Outcome := do
  let srs := DLEQ.setup C C' rng
  let (pair, rng) := DLEQ.generatePair srs rng
  let ((comms, _, z), rng) ← (DLEQ.prove C C' H srs rng pair.1).unwrap
  (DLEQ.verify C C' H srs pair.2 (comms, rng 0, z)).unwrap

/-- `test_simple_nizk_malformed_response`. dleq/mod.rs:392-406 -/
noncomputable def dleqMalformedResponse (C : Curve G) (C' : Curve G') (H : HashEnv r) (rng : Rng r) : Outcome := do
  let srs := DLEQ.setup C C' rng
  let (pair, rng) := DLEQ.generatePair srs rng
  let ((comms, c, _), rng) ← (DLEQ.prove C C' H srs rng pair.1).unwrap
  (DLEQ.verify C C' H srs pair.2 (comms, c, rng 0)).unwrap

/-- `test_serialization`. dleq/mod.rs:429-440 -/
noncomputable def dleqSerialization (C : Curve G) (C' : Curve G') (F : Codec (ZMod r)) (H : HashEnv r) (rng : Rng r) :
    Outcome := do
  let srs := DLEQ.setup C C' rng
  let (pair, rng) := DLEQ.generatePair srs rng
  let (proof, _) ← (DLEQ.prove C C' H srs rng pair.1).unwrap
  checkSerialization (Codec.prod C.codec C'.codec) srs
  checkSerialization (Codec.prod F (Codec.prod C.codec C'.codec)) pair
  checkSerialization (Codec.prod (Codec.prod C.codec C'.codec) (Codec.prod F F)) proof

end Dleq

/-! ## signature/schnorr/mod.rs -/

section Schnorr
variable {G : Type} [AddCommGroup G] [DecidableEq G]

/-- `test_simple_sig`. schnorr/mod.rs:224-238 -/
noncomputable def schnorrSimple (C : Curve G) (H : HashEnv r) (rng : Rng r) : Outcome := do
  let g := Schnorr.setup C rng
  let (keypair, rng) := Schnorr.generateKeypair g rng
  let (sig, _) ← (Schnorr.sign C H g rng keypair.1 (ascii "hello")).unwrap
  (Schnorr.verify C H g keypair.2 (ascii "hello") sig).unwrap

/-- `test_simple_sig_wrong_pk`. schnorr/mod.rs:252-265 -/
noncomputable def schnorrWrongPk (C : Curve G) (H : HashEnv r) (rng : Rng r) : Outcome := do
  let g := Schnorr.setup C rng
  let (keypair, rng) := Schnorr.generateKeypair g rng
  let (sig, rng) ← (Schnorr.sign C H g rng keypair.1 (ascii "hello")).unwrap
  let (keypair2, _) := Schnorr.generateKeypair g rng
  (Schnorr.verify C H g keypair2.2 (ascii "hello") sig).unwrap

/-- `test_simple_sig_wrong_message`. schnorr/mod.rs:279-292 -/
noncomputable def schnorrWrongMessage (C : Curve G) (H : HashEnv r) (rng : Rng r) : Outcome := do
  let g := Schnorr.setup C rng
  let (keypair, rng) := Schnorr.generateKeypair g rng
  let (sig, _) ← (Schnorr.sign C H g rng keypair.1 (ascii "hello")).unwrap
  (Schnorr.verify C H g keypair.2 (ascii "goodbye") sig).unwrap

/-- `test_simple_sig_batch`. schnorr/mod.rs:304-325 -/
noncomputable def schnorrBatch (C : Curve G) (H : HashEnv r) (rng : Rng r) : Outcome := do
  let g := Schnorr.setup C rng
  let (keypair, rng) := Schnorr.generateKeypair g rng
  let (sig, rng) ← (Schnorr.sign C H g rng keypair.1 (ascii "hello")).unwrap
  let (keypair2, rng) := Schnorr.generateKeypair g rng
  let (sig2, rng) ← (Schnorr.sign C H g rng keypair2.1 (ascii "hello2")).unwrap
  (Schnorr.batchVerify C H g rng [keypair.2, keypair2.2] [ascii "hello", ascii "hello2"] [sig, sig2]).unwrap

/-- `test_serialization`. schnorr/mod.rs:337-348 -/
noncomputable def schnorrSerialization (C : Curve G) (F : Codec (ZMod r)) (H : HashEnv r) (rng : Rng r) : Outcome := do
  let g := Schnorr.setup C rng
  let (keypair, rng) := Schnorr.generateKeypair g rng
  let (sig, _) ← (Schnorr.sign C H g rng keypair.1 (ascii "hello")).unwrap
  checkSerialization C.codec g
  checkSerialization (Codec.prod F C.codec) keypair
  checkSerialization (Codec.prod C.codec F) sig

end Schnorr

variable {G1 G2 K : Type} [AddCommGroup G1] [DecidableEq G1] [AddCommGroup G2] [DecidableEq G2] [CommMonoid K] [DecidableEq K]

/-! ## modified_scrape/decomp.rs -/

/-- `test_simple_decomp_proof`: degree 3, 10 participants. decomp.rs:138-151 -/
noncomputable def decompSimple (S : Suite r G1 G2 K) (m : Mode) (srs : SRS G1 G2) (rng : Rng r) : Outcome := do
  let conf : Config G1 G2 := ⟨srs, 3, 10⟩
  let (poly, rng) ← polyRand m rng 3
  let p0 ← idx poly 0
  let (dproof, _) ← (Decomp.generate S rng conf p0).unwrap
  (dproof.verify S conf).unwrap

/-- `test_invalid_decomp_proof`. decomp.rs:153-173 -/
noncomputable def decompInvalid (S : Suite r G1 G2 K) (m : Mode) (srs : SRS G1 G2) (rng : Rng r) : Outcome := do
  let conf : Config G1 G2 := ⟨srs, 3, 10⟩
  let (poly, rng) ← polyRand m rng 3
  let p0 ← idx poly 0
  let (dproof, rng) ← (Decomp.generate S rng conf p0).unwrap
  let bad : DecompProof r G2 := ⟨(dproof.proof.1, rng 0, dproof.proof.2.2), dproof.gs⟩
  (bad.verify S conf).unwrap

/-- `test_serialization_decomp_proof`. decomp.rs:175-188 -/
noncomputable def decompSerialization (S : Suite r G1 G2 K) (m : Mode) (srs : SRS G1 G2) (rng : Rng r) : Outcome := do
  let conf : Config G1 G2 := ⟨srs, 3, 10⟩
  let (poly, rng) ← polyRand m rng 3
  let p0 ← idx poly 0
  let (dproof, _) ← (Decomp.generate S rng conf p0).unwrap
  checkSerialization (DecompProof.codec S) dproof

/-! ## modified_scrape/pvss.rs -/

/-- `test_empty`. pvss.rs:111-119 -/
def coreEmpty (G1 G2 : Type) [AddCommGroup G1] [DecidableEq G1] [AddCommGroup G2] [DecidableEq G2] : Outcome := do
  let core : PVSSCore G1 G2 := PVSSCore.empty 10
  check (∀ x ∈ core.encs, x = 0)
  check (∀ x ∈ core.comms, x = 0)

/-- `test_eq`. pvss.rs:121-129 -/
def coreEq (G1 G2 : Type) [AddCommGroup G1] [DecidableEq G1] [AddCommGroup G2] [DecidableEq G2] : Outcome :=
  check ((PVSSCore.empty 10 : PVSSCore G1 G2) = PVSSCore.empty 10)

/-- `test_neq`: `vec![x; size]` repeats one draw. pvss.rs:131-146 -/
def coreNeq (e1 e2 : G1) (c1 c2 : G2) : Outcome :=
  check ((⟨List.replicate 10 e1, List.replicate 10 c1⟩ : PVSSCore G1 G2) ≠ ⟨List.replicate 10 e2, List.replicate 10 c2⟩)

/-- `test_eq_different_lengths`. pvss.rs:148-156 -/
def coreLengths (G1 G2 : Type) [AddCommGroup G1] [DecidableEq G1] [AddCommGroup G2] [DecidableEq G2] : Outcome :=
  check ((PVSSCore.empty 10 : PVSSCore G1 G2) ≠ PVSSCore.empty 11)

/-- `test_core_aggregation`. pvss.rs:158-180 -/
def coreAggregation (e : G1) (c : G2) : Outcome := do
  let encs := List.replicate 10 e
  let comms := List.replicate 10 c
  let core1 : PVSSCore G1 G2 := ⟨encs, comms⟩
  let core2 : PVSSCore G1 G2 := ⟨encs.map (- ·), comms.map (- ·)⟩
  let result ← (core1.aggregate core2).unwrap
  check (∀ x ∈ result.encs, x = 0)
  check (∀ x ∈ result.comms, x = 0)

/-- The four tests of mismatched lengths, with `n` zero entries in each vector: `test_aggregate_empty_encs` (0, 10, 10, 10),
`test_aggregate_empty_comms` (10, 0, 10, 10), `test_aggregate_mismatching_encs_lengths` (10, 10, 20, 20),
`test_aggregate_mismatching_encs_comms_lengths` (10, 11, 10, 10). pvss.rs:182-253 -/
def coreMismatch (G1 G2 : Type) [AddCommGroup G1] [DecidableEq G1] [AddCommGroup G2] [DecidableEq G2] (e1 c1 e2 c2 : ℕ) :
    Outcome := do
  let core1 : PVSSCore G1 G2 := ⟨List.replicate e1 0, List.replicate c1 0⟩
  let core2 : PVSSCore G1 G2 := ⟨List.replicate e2 0, List.replicate c2 0⟩
  let _ ← (core1.aggregate core2).unwrap
  .ok ()

/-- `test_serialization`. pvss.rs:255-266 -/
def coreSerialization (S : Suite r G1 G2 K) (e : G1) (c : G2) : Outcome :=
  checkSerialization (PVSSCore.codec S) ⟨List.replicate 10 e, List.replicate 10 c⟩

/-! ## modified_scrape/poly.rs

`deg` is the draw of `gen_range(3, 100)`. -/

/-- `test_sample_poly`. poly.rs:266-283 -/
def samplePoly (m : Mode) (deg : ℕ) (rng : Rng r) : Outcome := do
  let _ ← polyRand m rng deg
  check (2 + 2 = 4)

/-- `test_ensure_degree`: one point repeated `deg + 4` times. poly.rs:286-294 -/
def degreeRepeated (m : Mode) (deg : ℕ) (P : G2) (rng : Rng r) : Outcome := do
  let _ ← (ensureDegree m rng (List.replicate (deg + 4) P) deg).unwrap
  .ok ()

/-- `test_ensure_degree_insufficient_evals`. poly.rs:297-306 -/
def degreeInsufficient (m : Mode) (deg : ℕ) (P : G2) (rng : Rng r) : Outcome := do
  let _ ← (ensureDegree m rng (List.replicate (deg - 1) P) deg).unwrap
  .ok ()

/-- `test_lagrange_interpolation_simple_insufficient_evals`. poly.rs:309-319 -/
def simpleInsufficient (r : ℕ) [Fact r.Prime] (m : Mode) (deg : ℕ) (P : G2) : Outcome := do
  let _ ← (lagrangeSimple (r := r) m (List.replicate (deg - 1) P) deg).unwrap
  .ok ()

/-- `test_lagrange_interpolation_simple`. poly.rs:322-341 -/
def simpleReconstruct (m : Mode) (deg : ℕ) (g2 : G2) (rng : Rng r) : Outcome := do
  let (p, _) ← polyRand m rng deg
  let secret ← idx p 0
  let evals := (range1 (deg + 1)).map fun x : ℕ => mulRepr g2 (polyEval p (x : ZMod r))
  let rec' ← (lagrangeSimple (r := r) m evals deg).unwrap
  check (rec' = mulRepr g2 secret)

/-- `test_lagrange_interpolation_insufficient_evals` (`ne = np = deg - 1`) and
`test_lagrange_interpolation_different_points_evals` (`ne = deg + 1`, `np = deg + 2`): one point and one scalar, repeated.
poly.rs:344-369 -/
def g2BadLengths (m : Mode) (deg ne np : ℕ) (P : G2) (x : ZMod r) : Outcome := do
  let _ ← (lagrangeG2 m (List.replicate ne P) (List.replicate np x) deg).unwrap
  .ok ()

/-- `test_lagrange_interpolation`. poly.rs:372-395 -/
def g2Reconstruct (m : Mode) (deg : ℕ) (g2 : G2) (rng : Rng r) : Outcome := do
  let (p, _) ← polyRand m rng deg
  let secret ← idx p 0
  let points := (range1 (deg + 1)).map fun j : ℕ => (j : ZMod r)
  let evals ← collect (fun j => do
    let x ← idx points (j - 1)
    .ok (mulRepr g2 (polyEval p x))) (range1 (deg + 1))
  let rec' ← (lagrangeG2 m evals points deg).unwrap
  check (rec' = mulRepr g2 secret)

/-- `test_reconstruction_over_target_group`. poly.rs:398-431 -/
def gtReconstruct (S : Suite r G1 G2 K) (m : Mode) (deg : ℕ) (srs : SRS G1 G2) (rng : Rng r) : Outcome := do
  let sks := (List.range (deg + 1)).map fun i => mulRepr srs.g1 (rng i)
  let evals := sks.map fun sk => S.pair sk srs.g2
  let points := (List.range (deg + 1)).map (· + 1)
  let _ ← (lagrangeGt (r := r) m evals points deg).unwrap
  check (2 + 2 = 4)

/-- The dealer with freshly drawn keys and the given id. poly.rs:459-477, node.rs:206-222, 269-336 -/
def dealer (S : Suite r G1 G2 K) (srs : SRS G1 G2) (id : ℕ) (key : Rng r) (seed : Bytes 32) : Dealer r G1 :=
  let kp := (Schnorr.generateKeypair (Schnorr.fromGenerator srs.g1) key).1
  let ed := generateKeypair S.ed seed
  ⟨kp.1, ed.2, ⟨id, kp.2, ed.1⟩⟩

/-- The participant map of the first `n` dealers. poly.rs:482-489, node.rs:338-350 -/
def participants (S : Suite r G1 G2 K) (srs : SRS G1 G2) (n : ℕ) (key : ℕ → Rng r) (seed : ℕ → Bytes 32) :
    BMap (Participant G1) :=
  BMap.ofList ((List.range n).map fun id => (id, (dealer S srs id (key id) (seed id)).participant))

/-- `lagrange_interpolation_gt` of the pairings of the listed (1-based) parties with the epoch generator. poly.rs:547-590 -/
def recoverAt (S : Suite r G1 G2 K) (m : Mode) (sks : List G1) (epoch : G2) (points : List ℕ) : Res Empty K := do
  let evals ← collect (fun j => do
    let p ← idx points j
    let sk ← idx sks (p - 1)
    .ok (S.pair sk epoch)) (List.range points.length)
  (lagrangeGt (r := r) m evals points 3).unwrap

/-- `test_lagrange_interpolation_target_group_different_sets`: 8 participants, degree 3; the epoch generator is a hash
(`b"OnePiece"`, the 16 bytes of `2u128`) onto the curve `C`, its cofactor cleared; `toG2` takes such a point to the group of prime
order. poly.rs:434-595 -/
noncomputable def gtDifferentSets {E : Type} [AddCommGroup E] [DecidableEq E] (S : Suite r G1 G2 K) (C : RawCurve E) (toG2 : E → G2)
    (m : Mode) (srs : SRS G1 G2) (key : ℕ → Rng r)
    (seed : ℕ → Bytes 32) (rng : Rng r) : Outcome := do
  let conf : Config G1 G2 := ⟨srs, 3, 8⟩
  let ps := participants S srs 8 key seed
  let nodes : List (Node r G1 G2) := (List.range 8).map fun i => Node.new conf (dealer S srs i (key i) (seed i)) ps
  let (f, _) ← polyRand m rng 3
  let s := (range1 8).map fun i : ℕ => polyEval f (i : ZMod r)
  let encs ← collect (fun i => do
    let nd ← idx nodes i
    let p ← (Res.ofOption (nd.aggregator.participants.get i) (PVSSError.InvalidParticipantId i)).unwrap
    let si ← idx s i
    .ok (mulRepr p.pkSig si)) (List.range 8)
  let comms ← collect (fun i => do
    let si ← idx s i
    .ok (mulRepr conf.srs.g2 si)) (List.range 8)
  let core : PVSSCore G1 G2 := ⟨encs, comms⟩
  let sks ← collect (fun i => do
    let nd ← idx nodes i
    let d ← DecryptedShare.generate core.encs nd.dealer.skSig nd.dealer.participant.id
    .ok d.dec) (List.range 8)
  let point ← (hashToGroup (ε := NIZKError) S.hash C (ascii "OnePiece") (2 :: List.replicate 15 0)).unwrap
  let epoch := toG2 point
  let rec1 ← recoverAt S m sks epoch [1, 2, 3, 4]
  let rec2 ← recoverAt S m sks epoch [5, 6, 7, 8]
  let rec3 ← recoverAt S m sks epoch [3, 5, 1, 7]
  let rec4 ← recoverAt S m sks epoch [1, 2, 3, 4, 5, 6, 7, 8]
  check (rec1 = rec2)
  check (rec2 = rec3)
  check (rec3 = rec4)

/-! ## modified_scrape/share.rs -/

/-- `test_generate_valid_signed_proof`: the secret is 10. share.rs:199-224 -/
noncomputable def signedProof (S : Suite r G1 G2 K) (srs : SRS G1 G2) (seed : Bytes 32) (rng : Rng r) : Outcome := do
  let conf : Config G1 G2 := ⟨srs, 3, 10⟩
  let (pk, sk) := generateKeypair S.ed seed
  let (dproof, _) ← (Decomp.generate S rng conf 10).unwrap
  let sig ← Signature.new S.ed (dproof.digest S) sk
  let sproof : SignedProof r G2 := ⟨dproof, sig⟩
  (sproof.verify S conf pk).unwrap

/-- `test_create_empty_aggregated_pvss_share`. share.rs:227-247 -/
def emptyAggregated (r : ℕ) (G1 G2 : Type) [AddCommGroup G1] [DecidableEq G1] [AddCommGroup G2] [DecidableEq G2] : Outcome :=
  check ((AggShare.empty 3 10 : AggShare r G1 G2) = ⟨10, 3, ⟨List.replicate 10 0, List.replicate 10 0⟩, BMap.empty⟩)

/-- The share put together in the tests: a polynomial, its decomposition proof, signed, and its evaluations under the given keys.
share.rs:258-313, 326-383, 419-530 -/
noncomputable def makeShare (S : Suite r G1 G2 K) (m : Mode) (conf : Config G1 G2) (id : ℕ) (pks : List G1) (seed : Bytes 32)
    (rng : Rng r) : Res Empty (PVSSShare r G1 G2) := do
  let (poly, rng) ← polyRand m rng conf.degree
  let p0 ← idx poly 0
  let (_, sk) := generateKeypair S.ed seed
  let (dproof, _) ← (Decomp.generate S rng conf p0).unwrap
  let sig ← Signature.new S.ed (dproof.digest S) sk
  let evals := (range1 conf.numParticipants).map fun j : ℕ => polyEval poly (j : ZMod r)
  let comms ← collect (fun j => do
    let e ← idx evals j
    .ok (mulRepr conf.srs.g2 e)) (List.range conf.numParticipants)
  let encs ← collect (fun j => do
    let pk ← idx pks j
    let e ← idx evals j
    .ok (mulRepr pk e)) (List.range conf.numParticipants)
  .ok ⟨id, ⟨encs, comms⟩, ⟨dproof, sig⟩⟩

/-- The public keys of the tests of one share: one random point, repeated, with a generated key at place 5. share.rs:266-301 -/
def keysOne (S : Suite r G1 G2 K) (P : G1) (key : Rng r) : List G1 :=
  (List.replicate 10 P).set 5 (Schnorr.generateKeypair (Schnorr.setup S.c1 key) key).1.2

/-- The public keys of the tests of two shares: generated keys at places 2 and 3. share.rs:433-437, 501-505 -/
def keysTwo (S : Suite r G1 G2 K) (P : G1) (keyA keyB : Rng r) : List G1 :=
  ((List.replicate 10 P).set 2 (Schnorr.generateKeypair (Schnorr.setup S.c1 keyA) keyA).1.2).set 3
    (Schnorr.generateKeypair (Schnorr.setup S.c1 keyB) keyB).1.2

/-- `test_create_pvss_share`. share.rs:250-319 -/
noncomputable def createShare (S : Suite r G1 G2 K) (m : Mode) (srs : SRS G1 G2) (P : G1) (key : Rng r) (seed : Bytes 32)
    (rng : Rng r) : Outcome := do
  let _ ← makeShare S m ⟨srs, 3, 10⟩ 5 (keysOne S P key) seed rng
  .ok ()

/-- `test_aggregation_of_pvss_share`. share.rs:322-403 -/
noncomputable def aggregateOne (S : Suite r G1 G2 K) (m : Mode) (srs : SRS G1 G2) (P : G1) (key : Rng r) (seed : Bytes 32)
    (rng : Rng r) : Outcome := do
  let sh ← makeShare S m ⟨srs, 3, 10⟩ 5 (keysOne S P key) seed rng
  let agg ← ((AggShare.empty 3 10 : AggShare r G1 G2).aggregatePvssShare m sh).unwrap
  check (agg = ⟨10, 3, sh.core, BMap.empty.insert 5 (sh.signedProof, 1)⟩)

/-- `test_aggregation_of_two_pvss_shares`. share.rs:406-566 -/
noncomputable def aggregateTwo (S : Suite r G1 G2 K) (m : Mode) (srs : SRS G1 G2) (P : G1) (keyA keyB : Rng r)
    (seedA seedB : Bytes 32) (rngA rngB : Rng r) : Outcome := do
  let shA ← makeShare S m ⟨srs, 3, 10⟩ 2 (keysTwo S P keyA keyB) seedA rngA
  let shB ← makeShare S m ⟨srs, 3, 10⟩ 3 (keysTwo S P keyA keyB) seedB rngB
  let agg ← ((AggShare.empty 3 10 : AggShare r G1 G2).aggregatePvssShare m shA).unwrap
  let agg ← (agg.aggregatePvssShare m shB).unwrap
  let core ← ((PVSSCore.empty 10 : PVSSCore G1 G2).aggregate shA.core).unwrap
  let core ← (core.aggregate shB.core).unwrap
  check (agg = ⟨10, 3, core, (BMap.empty.insert 2 (shA.signedProof, 1)).insert 3 (shB.signedProof, 1)⟩)

/-- `test_serialization_pvss_share`. share.rs:569-640 -/
noncomputable def shareSerialization (S : Suite r G1 G2 K) (m : Mode) (srs : SRS G1 G2) (P : G1) (key : Rng r) (seed : Bytes 32)
    (rng : Rng r) : Outcome := do
  let sh ← makeShare S m ⟨srs, 3, 10⟩ 5 (keysOne S P key) seed rng
  checkSerialization (PVSSShare.codec S) sh

/-- `test_serialization_deserialization_aggregated_share`. share.rs:642-774 -/
noncomputable def aggregatedSerialization (S : Suite r G1 G2 K) (m : Mode) (srs : SRS G1 G2) (P : G1) (keyA keyB : Rng r)
    (seedA seedB : Bytes 32) (rngA rngB : Rng r) : Outcome := do
  let shA ← makeShare S m ⟨srs, 3, 10⟩ 2 (keysTwo S P keyA keyB) seedA rngA
  let shB ← makeShare S m ⟨srs, 3, 10⟩ 3 (keysTwo S P keyA keyB) seedB rngB
  let agg ← ((AggShare.empty 3 10 : AggShare r G1 G2).aggregatePvssShare m shA).unwrap
  let agg ← (agg.aggregatePvssShare m shB).unwrap
  checkSerialization (AggShare.codec S) agg

/-! ## modified_scrape/node.rs -/

/-- `test_one`: degree 1, one participant. node.rs:201-251 -/
noncomputable def nodeOne (S : Suite r G1 G2 K) (m : Mode) (srs : SRS G1 G2) (key : Rng r) (seed : Bytes 32) (rng : Rng r) :
    Outcome := do
  let d := dealer S srs 0 key seed
  let node : Node r G1 G2 := ⟨⟨⟨srs, 1, 1⟩, BMap.ofList [(0, d.participant)], AggShare.empty 1 1⟩, d⟩
  let _ ← (node.share S m rng).unwrap
  .ok ()

/-- `x.aggregator.receive_share(rng, &mut s).unwrap()`: the aggregator afterwards. -/
noncomputable def receive (S : Suite r G1 G2 K) (m : Mode) (a : Aggregator r G1 G2) (rng : Rng r) (sh : PVSSShare r G1 G2) :
    Res Empty (Aggregator r G1 G2) := do
  (a.receiveShare S m rng sh).1.unwrap
  .ok (a.receiveShare S m rng sh).2

/-- `x.aggregator.receive_aggregated_share(rng, &mut s).unwrap()`: the aggregator afterwards. -/
noncomputable def receiveAgg (S : Suite r G1 G2 K) (m : Mode) (a : Aggregator r G1 G2) (rng : Rng r) (ag : AggShare r G1 G2) :
    Res Empty (Aggregator r G1 G2) := do
  (a.receiveAggregatedShare S m rng ag).1.unwrap
  .ok (a.receiveAggregatedShare S m rng ag).2

/-- `test_aggregation_with_4_nodes`: degree 2; `deal i` are the draws of the dealing of party `i`, `recv k` those of the `k`-th
verification, `ra` the blinding of the decrypted share. node.rs:254-463 -/
noncomputable def nodeFour (S : Suite r G1 G2 K) (m : Mode) (srs : SRS G1 G2) (key : ℕ → Rng r) (seed : ℕ → Bytes 32)
    (deal recv : ℕ → Rng r) (ra : ZMod r) : Outcome := do
  let config : Config G1 G2 := ⟨srs, 2, 4⟩
  let ps := participants S srs 4 key seed
  let node := fun i => Node.new config (dealer S srs i (key i) (seed i)) ps
  let (pvssA, _) ← ((node 0).share S m (deal 0)).unwrap
  let (pvssB, _) ← ((node 1).share S m (deal 1)).unwrap
  let (pvssC, _) ← ((node 2).share S m (deal 2)).unwrap
  let (pvssD, _) ← ((node 3).share S m (deal 3)).unwrap
  let a ← receive S m (node 0).aggregator (recv 0) pvssA
  let a ← receive S m a (recv 1) pvssB
  let b ← receive S m (node 1).aggregator (recv 2) pvssB
  let b ← receive S m b (recv 3) pvssA
  let c ← receive S m (node 2).aggregator (recv 4) pvssC
  let c ← receive S m c (recv 5) pvssD
  let d ← receive S m (node 3).aggregator (recv 6) pvssD
  let d ← receive S m d (recv 7) pvssC
  check (a.tx = b.tx)
  check (c.tx = d.tx)
  let ab := a.tx
  let cd := c.tx
  let c ← receiveAgg S m c (recv 8) ab
  let d ← receiveAgg S m d (recv 9) ab
  let a ← receiveAgg S m a (recv 10) cd
  let b ← receiveAgg S m b (recv 11) cd
  check (a.tx = b.tx)
  check (b.tx = c.tx)
  check (c.tx = d.tx)
  let dec ← DecryptedShare.generate a.tx.core.encs (node 0).dealer.skSig (node 0).dealer.participant.id
  let cm : G2 × G1 := (mulRepr srs.g2 ra, dec.dec + -(mulRepr srs.g1 ra))
  let comm ← idx a.tx.core.comms dec.origin
  check (prodPairings S [(-srs.g1, comm), (srs.g1, cm.1), (cm.2, srs.g2)] = 1)

/-- `test_double_aggregation`. node.rs:466-623 -/
noncomputable def nodeDouble (S : Suite r G1 G2 K) (m : Mode) (srs : SRS G1 G2) (key : ℕ → Rng r) (seed : ℕ → Bytes 32)
    (deal : Rng r) (recv : ℕ → Rng r) : Outcome := do
  let config : Config G1 G2 := ⟨srs, 2, 4⟩
  let ps := participants S srs 4 key seed
  let node := fun i => Node.new config (dealer S srs i (key i) (seed i)) ps
  let (pvssA, _) ← ((node 0).share S m deal).unwrap
  let a ← receive S m (node 0).aggregator (recv 0) pvssA
  let res1 := a.tx
  let a ← receive S m a (recv 1) pvssA
  let res2 := a.tx
  check (res1.numParticipants = res2.numParticipants)
  check (res1.degree = res2.degree)
  check (res1.core ≠ res2.core)
  let c1 ← Res.unwrapOpt (res1.contributions.get 0)
  let c2 ← Res.unwrapOpt (res2.contributions.get 0)
  check (c1.1 = c2.1)
  check (c1.2 = 1)
  check (c2.2 = 2)
  let _ ← receiveAgg S m (node 1).aggregator (recv 2) a.tx
  .ok ()

end Verif.Tests
