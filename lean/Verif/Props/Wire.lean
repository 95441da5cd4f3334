import Verif.Model.Size
import Verif.Lemmas.Codec
import Verif.Props.Codec

/-!
# Wire layout and `serialized_size`: C65
-/

namespace Verif
open Codec

set_option linter.unusedSectionVars false

variable {r : ℕ} [Fact r.Prime] {G1 G2 K : Type}
  [AddCommGroup G1] [DecidableEq G1] [AddCommGroup G2] [DecidableEq G2]

/-- Byte `i` of the 8-byte little-endian form of `x`. -/
def Spec.le8 (x : ℕ) : List UInt8 := (List.range 8).map fun i => UInt8.ofNat (x / 256 ^ i % 256)

theorem leBytes_eq_map (n x : ℕ) : leBytes n x = (List.range n).map fun i => UInt8.ofNat (x / 256 ^ i % 256) := by
  induction n generalizing x with
  | zero => rfl
  | succ n ih =>
    rw [List.range_succ_eq_map]
    simp only [leBytes, List.map_cons, List.map_map, pow_zero, Nat.div_one, ih, List.cons.injEq, true_and]
    refine List.map_congr_left fun i _ => ?_
    simp only [Function.comp, Nat.div_div_eq_div_mul, pow_succ, mul_comm]

theorem leBytes_eight (x : ℕ) : leBytes 8 x = Spec.le8 x := leBytes_eq_map 8 x

/-- **C65** (layout). Every message is the concatenation of its fields in declaration order: integers as 8 little-endian
bytes, vectors and maps behind their length, map entries in key order as key, signed proof, weight; `PhantomData` leaves no
trace; byte arrays and signatures appear verbatim. -/
theorem C65_layout (S : Suite r G1 G2 K) :
    (∀ x : SRS G1 G2, (SRS.codec S).enc x = S.c1.codec.enc x.g1 ++ S.c2.codec.enc x.g2 ++ S.c2.codec.enc x.g2Prime) ∧
    (∀ x : Config G1 G2, (Config.codec S).enc x = S.c1.codec.enc x.srs.g1 ++ S.c2.codec.enc x.srs.g2 ++
      S.c2.codec.enc x.srs.g2Prime ++ Spec.le8 x.degree ++ Spec.le8 x.numParticipants) ∧
    (∀ x : Participant G1, (Participant.codec S).enc x = Spec.le8 x.id ++ S.c1.codec.enc x.pkSig ++ x.pkEd.bytes.1) ∧
    (∀ x : PVSSCore G1 G2, (PVSSCore.codec S).enc x =
      Spec.le8 x.encs.length ++ x.encs.flatMap S.c1.codec.enc ++
      Spec.le8 x.comms.length ++ x.comms.flatMap S.c2.codec.enc) ∧
    (∀ x : DecompProof r G2, (DecompProof.codec S).enc x = S.c2.codec.enc x.proof.1 ++ S.frC.enc x.proof.2.1 ++
      S.frC.enc x.proof.2.2 ++ S.c2.codec.enc x.gs) ∧
    (∀ x : SignedProof r G2, (SignedProof.codec S).enc x = (DecompProof.codec S).enc x.decompProof ++
      x.signature.part1.1 ++ x.signature.part2.1) ∧
    (∀ x : PVSSShare r G1 G2, (PVSSShare.codec S).enc x = Spec.le8 x.participantId ++ (PVSSCore.codec S).enc x.core ++
      (SignedProof.codec S).enc x.signedProof) ∧
    (∀ x : AggShare r G1 G2, (AggShare.codec S).enc x = Spec.le8 x.numParticipants ++ Spec.le8 x.degree ++
      (PVSSCore.codec S).enc x.core ++ Spec.le8 x.contributions.entries.length ++
      x.contributions.entries.flatMap fun e =>
        Spec.le8 e.1 ++ (SignedProof.codec S).enc e.2.1 ++ Spec.le8 e.2.2.toNat) := by
  refine ⟨?_, ?_, ?_, ?_, ?_, ?_, ?_, ?_⟩ <;> intro x <;>
    simp [SRS.codec, Config.codec, Participant.codec, PVSSCore.codec, DecompProof.codec, SignedProof.codec,
      PVSSShare.codec, AggShare.codec, proofCodec, Codec.iso, Codec.prod, Codec.vec, Codec.bmap, Codec.u64, Codec.weight,
      Codec.phantom, PublicKey.codec, Signature.codec, flatten_u8, leBytes_eight, List.flatMap_def]

theorem sum_flatMap_length {α : Type} (f : α → List UInt8) (g : α → ℕ) (l : List α) (h : ∀ x ∈ l, (f x).length = g x) :
    (l.flatMap f).length = (l.map g).sum := by
  rw [List.length_flatMap]
  exact congrArg List.sum (List.map_congr_left h)

theorem le8_length (x : ℕ) : (Spec.le8 x).length = 8 := by simp [Spec.le8]

/-- **C65** (sizes). `serialized_size` of every derived type is exactly the number of bytes written. -/
theorem C65_size (S : Suite r G1 G2 K) {n1 n2 nf : ℕ} (h : CodecLaws S n1 n2 nf) :
    (∀ x : SRS G1 G2, ((SRS.codec S).enc x).length = x.serializedSize n1 n2) ∧
    (∀ x : Config G1 G2, ((Config.codec S).enc x).length = x.serializedSize n1 n2) ∧
    (∀ x : Participant G1, ((Participant.codec S).enc x).length = x.serializedSize n1) ∧
    (∀ x : PVSSCore G1 G2, ((PVSSCore.codec S).enc x).length = x.serializedSize n1 n2) ∧
    (∀ x : DecompProof r G2, ((DecompProof.codec S).enc x).length = x.serializedSize n2 nf) ∧
    (∀ x : SignedProof r G2, ((SignedProof.codec S).enc x).length = x.serializedSize n2 nf) ∧
    (∀ x : PVSSShare r G1 G2, ((PVSSShare.codec S).enc x).length = x.serializedSize n1 n2 nf) ∧
    (∀ x : AggShare r G1 G2, ((AggShare.codec S).enc x).length = x.serializedSize n1 n2 nf) := by
  obtain ⟨l1, l2, l3, l4, l5, l6, l7, l8⟩ := C65_layout S
  have e1 := h.c1size
  have e2 := h.c2size
  have ef := h.frsize
  have s4 : ∀ x : PVSSCore G1 G2, ((PVSSCore.codec S).enc x).length = x.serializedSize n1 n2 := fun x => by
    rw [l4]
    simp only [List.length_append, le8_length, sum_flatMap_length _ (fun _ => n1) _ fun y _ => e1 y,
      sum_flatMap_length _ (fun _ => n2) _ fun y _ => e2 y, PVSSCore.serializedSize, sizeVec, sizeU64]
    omega
  have s5 : ∀ x : DecompProof r G2, ((DecompProof.codec S).enc x).length = x.serializedSize n2 nf := fun x => by
    rw [l5]
    simp only [List.length_append, e2 _, ef _, DecompProof.serializedSize]
  have s6 : ∀ x : SignedProof r G2, ((SignedProof.codec S).enc x).length = x.serializedSize n2 nf := fun x => by
    rw [l6]
    have := (C53.2.2.2 x.signature).1
    simp only [List.length_append, s5, SignedProof.serializedSize, this]
    rw [x.signature.part1.2, x.signature.part2.2]
  refine ⟨fun x => ?_, fun x => ?_, fun x => ?_, s4, s5, s6, fun x => ?_, fun x => ?_⟩
  · rw [l1]; simp only [List.length_append, e1 _, e2 _, SRS.serializedSize]
  · rw [l2]
    simp only [List.length_append, e1 _, e2 _, le8_length, Config.serializedSize, SRS.serializedSize, sizeU64]
  · rw [l3]
    have := (C53.2.1 x.pkEd).1
    simp only [List.length_append, e1 _, le8_length, Participant.serializedSize, sizeU64, this]
    rw [x.pkEd.bytes.2]
  · rw [l7]; simp only [List.length_append, s4, s6, le8_length, PVSSShare.serializedSize, sizeU64]
  · rw [l8]
    rw [List.length_append, sum_flatMap_length _
      (fun e : ℕ × (SignedProof r G2 × UInt64) => sizeU64 + (e.2.1.serializedSize n2 nf + sizeU64)) _ fun e _ => by
        simp only [List.length_append, le8_length, s6, sizeU64]; omega]
    simp only [List.length_append, le8_length, s4, AggShare.serializedSize, sizeVec, sizeU64]
    omega

/-- **C65** (closed forms). With the BLS12-381 sizes (48, 96 and 32 bytes) a share of an `n`-party sharing takes
`344 + 144·n` bytes, and a transcript with `k` contributors `40 + 144·n + 336·k`. -/
theorem C65_bls (n k : ℕ) (s : PVSSShare r G1 G2) (a : AggShare r G1 G2)
    (h1 : s.core.encs.length = n) (h2 : s.core.comms.length = n)
    (h3 : a.core.encs.length = n) (h4 : a.core.comms.length = n) (h5 : a.contributions.entries.length = k) :
    s.serializedSize 48 96 32 = 344 + 144 * n ∧ a.serializedSize 48 96 32 = 40 + 144 * n + 336 * k := by
  have hs : ∀ x : SignedProof r G2, x.serializedSize 96 32 = 320 := fun x => by
    unfold SignedProof.serializedSize DecompProof.serializedSize
    rw [(C53.2.2.2 x.signature).1]
  refine ⟨?_, ?_⟩
  · simp only [PVSSShare.serializedSize, PVSSCore.serializedSize, sizeVec, sizeU64, hs, List.map_const', h1, h2,
      List.sum_replicate, smul_eq_mul]
    omega
  · simp only [AggShare.serializedSize, PVSSCore.serializedSize, sizeVec, sizeU64, hs, List.map_const', h3, h4, h5,
      List.sum_replicate, smul_eq_mul]
    omega

/-- Non-vacuity: the toy transcript with two contributors. -/
example : ((AggShare.codec (Toy.suite 13)).enc Toy.aggShare).length = Toy.aggShare.serializedSize 32 32 32 :=
  (C65_size _ (Toy.codecLaws 13 (by omega))).2.2.2.2.2.2.2 _

end Verif
