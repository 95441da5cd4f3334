import Verif.Model.Laws
import Mathlib.Algebra.Polynomial.Eval.Degree
import Mathlib.Algebra.BigOperators.Group.Finset.Basic

/-!
# Specification vocabulary

Mathematical notions used in the property statements.  They mention data types of the model but none of its functions.
-/

open Finset Polynomial

namespace Verif.Spec

variable {r : ℕ} [Fact r.Prime] {G1 G2 K : Type} [AddCommGroup G1] [AddCommGroup G2]
  [Module (ZMod r) G1] [Module (ZMod r) G2]

/-- The evaluation point of party `i` (0-based): the scalar `i + 1`. -/
def point (r : ℕ) (i : ℕ) : ZMod r := ((i + 1 : ℕ) : ZMod r)

/-- `v` is the vector of values at the points `1, …, n` of a polynomial of degree at most `t` with coefficients in
the group. -/
def Codeword (r : ℕ) [Fact r.Prime] {G : Type} [AddCommGroup G] [Module (ZMod r) G] (t : ℕ) (v : List G) : Prop :=
  ∃ A : ℕ → G, ∀ i (h : i < v.length), v[i] = ∑ k ∈ range (t + 1), point r i ^ k • A k

/-- `core` is a sharing of the scalar polynomial `p` (degree at most `t`) to the `n` parties whose encryption keys are
`pk`: all commitments and all encryptions are the right multiples. -/
structure Shares (g2 : G2) (n t : ℕ) (pk : ℕ → G1) (core : PVSSCore G1 G2) (p : (ZMod r)[X]) : Prop where
  degree : p.natDegree ≤ t
  encs_length : core.encs.length = n
  comms_length : core.comms.length = n
  comm : ∀ i (h : i < core.comms.length), core.comms[i] = p.eval (point r i) • g2
  enc : ∀ i (h : i < core.encs.length), core.encs[i] = p.eval (point r i) • pk i

/-- The participant table `ps` has an entry for every party `i < n`, with encryption key `pk i`. -/
def KeyTable (ps : BMap (Participant G1)) (n : ℕ) (pk : ℕ → G1) : Prop :=
  ∀ i < n, ∃ q, ps.get i = some q ∧ q.pkSig = pk i

/-- Encryption `i` of `core` carries the value committed in `comms[i]` for the key `pk`, as witnessed by the pairing. -/
def EncOk (S : Suite r G1 G2 K) (g2 : G2) (pk : G1) (core : PVSSCore G1 G2) (i : ℕ) : Prop :=
  ∃ e c, core.encs[i]? = some e ∧ core.comms[i]? = some c ∧ S.pair pk c = S.pair e g2

/-- The randomised dual-code test with the challenge polynomial `∑_{k < n-t-1} ρ_k X^k`. -/
def DegreeTest {G : Type} [AddCommGroup G] [Module (ZMod r) G] (t : ℕ) (comms : List G) (ρ : ℕ → ZMod r) : Prop :=
  ∑ i : Fin comms.length,
    ((∑ k ∈ range (comms.length - t - 1), ρ k * point r i ^ k) *
      ∏ j ∈ univ.erase i, (point r i - point r j)⁻¹) • comms[i] = 0

/-- The polynomial of degree at most `t` through the first `t + 1` entries of `comms` (at `1, …, t+1`) has the value `P`
at zero. -/
def InterpolatesTo (r : ℕ) [Fact r.Prime] {G : Type} [AddCommGroup G] [Module (ZMod r) G] (t : ℕ) (comms : List G)
    (P : G) : Prop :=
  ∃ A : ℕ → G, (∀ j (h : j < comms.length), j ≤ t → comms[j] = ∑ k ∈ range (t + 1), point r j ^ k • A k) ∧ A 0 = P

/-- A signed decomposition proof is valid for the key `pkEd`: the Schnorr-type equation with the hashed challenge, and the
EdDSA signature on the hash of the serialized proof. -/
structure SignedOk (S : Suite r G1 G2 K) (g2 : G2) (pkEd : PublicKey) (sp : SignedProof r G2) : Prop where
  challenge : (hashToField S.hash (ascii "DLKNIZK")
    (S.c2.codec.enc g2 ++ S.c2.codec.enc sp.decompProof.proof.1) : Res NIZKError _) = .ok sp.decompProof.proof.2.1
  equation : sp.decompProof.proof.2.2 • g2 + sp.decompProof.proof.2.1 • sp.decompProof.gs = sp.decompProof.proof.1
  sig_parses : S.ed.sigOk (Bytes.append32 sp.signature.part1 sp.signature.part2) = true
  pk_parses : S.ed.pkOk pkEd.bytes = true
  signature : S.ed.verifyStrict pkEd.bytes
    (S.shake (S.c2.codec.enc sp.decompProof.proof.1 ++ (S.frC.enc sp.decompProof.proof.2.1 ++
      S.frC.enc sp.decompProof.proof.2.2) ++ S.c2.codec.enc sp.decompProof.gs)).1
    (Bytes.append32 sp.signature.part1 sp.signature.part2) = true

/-- Weighted sum of the contributors' `gs` values. -/
def weightedGs (c : BMap (SignedProof r G2 × UInt64)) : G2 :=
  (c.entries.map fun e => ((e.2.2.toNat : ℕ) : ZMod r) • e.2.1.decompProof.gs).sum

/-- The pairing equation checked for a whole transcript, with one scalar `ρ` for all parties. -/
def BatchEq [CommMonoid K] (S : Suite r G1 G2 K) (g2 : G2) (pk : ℕ → G1) (core : PVSSCore G1 G2) (ρ : ZMod r) : Prop :=
  (core.comms.zipIdx.map fun ci => S.pair (ρ • pk ci.2) ci.1).prod = S.pair (ρ • core.encs.sum) g2

/-- The node's dealer is set up correctly: its EdDSA key pair comes from a seed, and the participant table of the node
registers the public half under the dealer's id. -/
def GoodDealer (ed : EdOps) (nd : Node r G1 G2) : Prop :=
  ∃ seed q, nd.dealer.skEd = ⟨Bytes.append32 seed (ed.derivePk seed)⟩ ∧
    nd.aggregator.participants.get nd.dealer.participant.id = some q ∧ q.pkEd = ⟨ed.derivePk seed⟩

/-- `sh` is a correct share of the polynomial `p`: the core is a sharing of `p`, `gs` is `p(0) • g2`, and the signed proof
is valid for the registered key of the sender. -/
structure GoodShare (S : Suite r G1 G2 K) (cfg : Config G1 G2) (ps : BMap (Participant G1)) (sh : PVSSShare r G1 G2)
    (p : (ZMod r)[X]) : Prop where
  id_lt : sh.participantId < cfg.numParticipants
  keys : ∃ pk, KeyTable ps cfg.numParticipants pk ∧ Shares cfg.srs.g2 cfg.numParticipants cfg.degree pk sh.core p
  gs : sh.signedProof.decompProof.gs = p.eval 0 • cfg.srs.g2
  signed : ∃ q, ps.get sh.participantId = some q ∧ SignedOk S cfg.srs.g2 q.pkEd sh.signedProof

/-- The transcript `tx` of an aggregator can take one more contribution `gs` of party `id`: it has the aggregator's
configuration and vector lengths, no other `gs` of the same party, and room in the 64-bit weight. -/
structure Compatible (cfg : Config G1 G2) (tx : AggShare r G1 G2) (id : ℕ) (gs : G2) : Prop where
  degree : tx.degree = cfg.degree
  num : tx.numParticipants = cfg.numParticipants
  encs_length : tx.core.encs.length = cfg.numParticipants
  comms_length : tx.core.comms.length = cfg.numParticipants
  room : ∀ x w, tx.contributions.get id = some (x, w) → x.decompProof.gs = gs ∧ w.toNat + 1 < 2 ^ 64

end Verif.Spec
