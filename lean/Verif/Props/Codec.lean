import Verif.Lemmas.Canonical
import Verif.Toy

/-!
# Serialization: C52 – C55
-/

namespace Verif
open Codec

set_option linter.unusedSectionVars false

variable {r : ℕ} [Fact r.Prime] {G1 G2 K : Type}
  [AddCommGroup G1] [DecidableEq G1] [AddCommGroup G2] [DecidableEq G2]
  (S : Suite r G1 G2 K) (n1 n2 nf : ℕ)

/-! ### C52 -/

/-- **C52** (SRS). -/
theorem C52_srs (h : CodecLaws S n1 n2 nf) (x : SRS G1 G2) (rest : List UInt8) :
    (SRS.codec S).dec ((SRS.codec S).enc x ++ rest) = .ok (x, rest) := srs_lawful h x rest

/-- **C52** (Config). -/
theorem C52_config (h : CodecLaws S n1 n2 nf) (x : Config G1 G2) (hd : x.degree < 2 ^ 64)
    (hn : x.numParticipants < 2 ^ 64) (rest : List UInt8) :
    (Config.codec S).dec ((Config.codec S).enc x ++ rest) = .ok (x, rest) := config_lawful h x ⟨hd, hn⟩ rest

/-- **C52** (Participant). -/
theorem C52_participant (h : CodecLaws S n1 n2 nf) (x : Participant G1) (hi : x.id < 2 ^ 64) (rest : List UInt8) :
    (Participant.codec S).dec ((Participant.codec S).enc x ++ rest) = .ok (x, rest) := participant_lawful h x hi rest

/-- **C52** (PVSSCore). -/
theorem C52_core (h : CodecLaws S n1 n2 nf) (x : PVSSCore G1 G2) (he : x.encs.length < 2 ^ 64)
    (hc : x.comms.length < 2 ^ 64) (rest : List UInt8) :
    (PVSSCore.codec S).dec ((PVSSCore.codec S).enc x ++ rest) = .ok (x, rest) := core_lawful h x ⟨he, hc⟩ rest

/-- **C52** (DecompProof). -/
theorem C52_decompProof (h : CodecLaws S n1 n2 nf) (x : DecompProof r G2) (rest : List UInt8) :
    (DecompProof.codec S).dec ((DecompProof.codec S).enc x ++ rest) = .ok (x, rest) := decompProof_lawful h x rest

/-- **C52** (SignedProof). -/
theorem C52_signedProof (h : CodecLaws S n1 n2 nf) (x : SignedProof r G2) (rest : List UInt8) :
    (SignedProof.codec S).dec ((SignedProof.codec S).enc x ++ rest) = .ok (x, rest) := signedProof_lawful h x rest

/-- **C52** (PVSSShare). -/
theorem C52_pvssShare (h : CodecLaws S n1 n2 nf) (x : PVSSShare r G1 G2) (hi : x.participantId < 2 ^ 64)
    (he : x.core.encs.length < 2 ^ 64) (hc : x.core.comms.length < 2 ^ 64) (rest : List UInt8) :
    (PVSSShare.codec S).dec ((PVSSShare.codec S).enc x ++ rest) = .ok (x, rest) :=
  pvssShare_lawful h x ⟨hi, he, hc⟩ rest

/-- **C52** (PVSSAggregatedShare). -/
theorem C52_aggShare (h : CodecLaws S n1 n2 nf) (x : AggShare r G1 G2) (hn : x.numParticipants < 2 ^ 64)
    (hd : x.degree < 2 ^ 64) (he : x.core.encs.length < 2 ^ 64) (hc : x.core.comms.length < 2 ^ 64)
    (hl : x.contributions.entries.length < 2 ^ 64) (hk : ∀ e ∈ x.contributions.entries, e.1 < 2 ^ 64)
    (rest : List UInt8) :
    (AggShare.codec S).dec ((AggShare.codec S).enc x ++ rest) = .ok (x, rest) :=
  aggShare_lawful h x ⟨hn, hd, he, hc, hl, hk⟩ rest

/-- **C52** (EdDSA types). -/
theorem C52_eddsa (rest : List UInt8) :
    (∀ d : Digest, Digest.codec.dec (Digest.codec.enc d ++ rest) = .ok (d, rest)) ∧
    (∀ k : PublicKey, PublicKey.codec.dec (PublicKey.codec.enc k ++ rest) = .ok (k, rest)) ∧
    (∀ k : SecretKey, SecretKey.codec.dec (SecretKey.codec.enc k ++ rest) = .ok (k, rest)) ∧
    (∀ s : Signature, Signature.codec.dec (Signature.codec.enc s ++ rest) = .ok (s, rest)) :=
  ⟨fun d => digest_lawful d rest, fun k => publicKey_lawful k rest, fun k => secretKey_lawful k rest,
    fun s => signature_lawful s rest⟩

/-- A zero signature. -/
def Toy.zeroSig : Signature := ⟨⟨List.replicate 32 0, by simp⟩, ⟨List.replicate 32 0, by simp⟩⟩

/-- An aggregated share with three parties and two contributions. -/
def Toy.aggShare : AggShare 13 (ZMod 13) (ZMod 13) where
  numParticipants := 3
  degree := 1
  core := ⟨[1, 2, 3], [4, 5, 6]⟩
  contributions := (BMap.empty.insert 2 (⟨⟨(1, 2, 3), 4⟩, Toy.zeroSig⟩, 7)).insert 0 (⟨⟨(4, 5, 6), 7⟩, Toy.zeroSig⟩, 1)

/-- Non-vacuity of C52. -/
example (rest : List UInt8) : (AggShare.codec (Toy.suite 13)).dec ((AggShare.codec (Toy.suite 13)).enc Toy.aggShare ++ rest)
    = .ok (Toy.aggShare, rest) :=
  C52_aggShare _ 32 32 32 (Toy.codecLaws 13 (by omega)) _ (by decide) (by decide) (by decide) (by decide) (by decide)
    (by decide) rest

/-! ### C53, C54 -/

/-- **C53**. -/
theorem C53 :
    (∀ d : Digest, serializedSizeBytes d.bytes = 32 ∧ (Digest.codec.enc d).length = 32) ∧
    (∀ k : PublicKey, serializedSizeBytes k.bytes = 32 ∧ (PublicKey.codec.enc k).length = 32) ∧
    (∀ k : SecretKey, serializedSizeBytes k.bytes = 64 ∧ (SecretKey.codec.enc k).length = 64) ∧
    (∀ s : Signature, s.serializedSize = 64 ∧ (Signature.codec.enc s).length = 64) := by
  have h1 : ∀ (l : List UInt8), (l.map fun x => (u8.enc x).length).sum = l.length := by
    intro l
    simp [u8]
  have h : ∀ {n} (b : Bytes n), serializedSizeBytes b = n := fun b => by
    unfold serializedSizeBytes
    rw [h1, b.2]
  refine ⟨fun d => ⟨h _, ?_⟩, fun d => ⟨h _, ?_⟩, fun d => ⟨h _, ?_⟩, fun s => ⟨?_, ?_⟩⟩
  · simp only [Digest.codec, flatten_u8]; exact d.bytes.2
  · simp only [PublicKey.codec, flatten_u8]; exact d.bytes.2
  · simp only [SecretKey.codec, flatten_u8]; exact d.bytes.2
  · unfold Signature.serializedSize; rw [h, h]
  · simp only [Signature.codec, flatten_u8, List.length_append]; rw [s.part1.2, s.part2.2]

theorem readBytes_lt {n : ℕ} {l : List UInt8} (h : l.length < n) : readBytes n l = .panic := by
  unfold readBytes; rw [dif_neg (by omega)]

theorem readBytes_ge {n : ℕ} {l : List UInt8} (h : n ≤ l.length) :
    readBytes n l = .ok (⟨l.take n, by simp [h]⟩, l.drop n) := by
  unfold readBytes; rw [dif_pos h]

/-- **C54** (too short): always a panic. -/
theorem C54_short (l : List UInt8) :
    (l.length < 32 → Digest.codec.dec l = .panic ∧ PublicKey.codec.dec l = .panic) ∧
    (l.length < 64 → SecretKey.codec.dec l = .panic ∧ Signature.codec.dec l = .panic) := by
  refine ⟨fun h => ⟨?_, ?_⟩, fun h => ⟨?_, ?_⟩⟩
  · simp only [Digest.codec, readBytes_lt h, Res.bind_panic']
  · simp only [PublicKey.codec, readBytes_lt h, Res.bind_panic']
  · simp only [SecretKey.codec, readBytes_lt h, Res.bind_panic']
  · simp only [Signature.codec, readBytes_lt h, Res.bind_panic']

/-- **C54** (long enough): always succeeds, with the first 32 (64) bytes as contents, leaving the others. -/
theorem C54_long (l : List UInt8) :
    (32 ≤ l.length → (∃ d, Digest.codec.dec l = .ok (d, l.drop 32) ∧ d.bytes.1 = l.take 32) ∧
      ∃ k, PublicKey.codec.dec l = .ok (k, l.drop 32) ∧ k.bytes.1 = l.take 32) ∧
    (64 ≤ l.length → (∃ k, SecretKey.codec.dec l = .ok (k, l.drop 64) ∧ k.bytes.1 = l.take 64) ∧
      ∃ s, Signature.codec.dec l = .ok (s, l.drop 64) ∧ s.part1.1 ++ s.part2.1 = l.take 64) := by
  refine ⟨fun h => ⟨⟨⟨⟨l.take 32, by simp [h]⟩⟩, ?_, rfl⟩, ⟨⟨⟨l.take 32, by simp [h]⟩⟩, ?_, rfl⟩⟩,
    fun h => ⟨⟨⟨⟨l.take 64, by simp [h]⟩⟩, ?_, rfl⟩,
      ⟨⟨⟨l.take 32, by simp; omega⟩, ⟨(l.take 64).drop 32, by simp [h]⟩⟩, ?_, ?_⟩⟩⟩
  · simp only [Digest.codec, readBytes_ge h, Res.bind_ok']
  · simp only [PublicKey.codec, readBytes_ge h, Res.bind_ok']
  · simp only [SecretKey.codec, readBytes_ge h, Res.bind_ok']
  · simp only [Signature.codec, readBytes_ge h, Res.bind_ok', List.take_take]
    rfl
  · have : l.take 32 = (l.take 64).take 32 := by rw [List.take_take]; rfl
    simp only
    rw [this, List.take_append_drop]

/-- Non-vacuity of C54: a 31-byte and a 70-byte string. -/
example : PublicKey.codec.dec (List.replicate 31 5) = .panic ∧
    ∃ s, Signature.codec.dec (List.replicate 70 5) = .ok (s, List.replicate 6 5) := by
  refine ⟨((C54_short _).1 (by simp)).2, ?_⟩
  obtain ⟨s, h, _⟩ := ((C54_long (List.replicate 70 5)).2 (by simp)).2
  exact ⟨s, h⟩

/-! ### C55 -/

/-- The claim of C55: whatever decodes (consuming all input) is the encoding of the result. -/
def C55_claim : Prop :=
  ∀ l a, (AggShare.codec S).dec l = .ok (a, []) → l = (AggShare.codec S).enc a

/-- An encoding whose map section lists the same pair twice. -/
def dupBytes (n d : ℕ) (core : PVSSCore G1 G2) (k : ℕ) (v : SignedProof r G2 × UInt64) : List UInt8 :=
  u64.enc n ++ (u64.enc d ++ ((PVSSCore.codec S).enc core ++ (u64.enc 2 ++
    ((prod u64 (prod (SignedProof.codec S) weight)).enc (k, v) ++
      (prod u64 (prod (SignedProof.codec S) weight)).enc (k, v)))))

/-- **C55 is false of the code**: in every suite, listing a contribution twice decodes to a transcript whose
serialization is a different byte string. -/
theorem C55_dup (h : CodecLaws S n1 n2 nf) (n d : ℕ) (core : PVSSCore G1 G2) (k : ℕ) (v : SignedProof r G2 × UInt64)
    (hn : n < 2 ^ 64) (hd : d < 2 ^ 64) (he : core.encs.length < 2 ^ 64) (hc : core.comms.length < 2 ^ 64)
    (hk : k < 2 ^ 64) :
    (AggShare.codec S).dec (dupBytes S n d core k v) = .ok (⟨n, d, core, BMap.empty.insert k v⟩, []) ∧
    dupBytes S n d core k v ≠ (AggShare.codec S).enc ⟨n, d, core, BMap.empty.insert k v⟩ := by
  constructor
  · have hpair := prod_lawful u64_lawful (prod_lawful ((signedProof_lawful h).on fun _ => True)
      (weight_lawful.on fun _ => True))
    have hN := decN_lawful hpair [(k, v), (k, v)] (by
      intro x hx
      have : x = (k, v) := by simpa using hx
      subst this; exact ⟨hk, trivial, trivial⟩) []
    simp only [List.length_cons, List.length_nil, zero_add, Nat.reduceAdd, List.map_cons, List.map_nil,
      List.flatten_cons, List.flatten_nil, List.append_nil] at hN
    have hm : BMap.ofList [(k, v), (k, v)] = BMap.empty.insert k v := by
      apply BMap.ext
      intro j
      simp only [BMap.ofList, List.foldl, BMap.get_insert]
      split <;> rfl
    simp only [dupBytes, AggShare.codec, iso, prod, bmap] at hN ⊢
    rw [u64_lawful _ hn]
    simp only [Res.bind_ok']
    rw [u64_lawful _ hd]
    simp only [Res.bind_ok']
    rw [core_lawful h core ⟨he, hc⟩]
    simp only [Res.bind_ok']
    rw [u64_lawful 2 (by omega)]
    simp only [Res.bind_ok']
    rw [hN]
    simp only [Res.bind_ok', hm]
  · intro hEq
    have := congrArg List.length hEq
    simp [dupBytes, AggShare.codec, iso, prod, bmap, BMap.empty, BMap.insert, BMap.insertL, BMap.entries, u64] at this

/-- **C55 negated** for every suite satisfying the codec laws. -/
theorem C55_false (h : CodecLaws S n1 n2 nf) : ¬ C55_claim S := by
  intro hc
  obtain ⟨h1, h2⟩ := C55_dup S n1 n2 nf h 1 0 ⟨[0], [0]⟩ 0 (⟨⟨(0, 0, 0), 0⟩, Toy.zeroSig⟩, 1) (by norm_num) (by norm_num)
    (by simp) (by simp) (by norm_num)
  exact h2 (hc _ _ h1)

/-- The encryptions of the core satisfy `p1` and its commitments `p2`. -/
def Spec.corePoints (p1 : G1 → Prop) (p2 : G2 → Prop) (c : PVSSCore G1 G2) : Prop :=
  (∀ P ∈ c.encs, p1 P) ∧ ∀ P ∈ c.comms, p2 P

/-- Both points of a signed decomposition proof satisfy `p2`. -/
def Spec.proofPoints (p2 : G2 → Prop) (x : SignedProof r G2) : Prop :=
  p2 x.decompProof.proof.1 ∧ p2 x.decompProof.gs

/-- **C55, the part that holds, for some points**: `p1`, `p2` are properties of points that make their encoding unique.  Then
(i) shares, cores, signed proofs, configurations and participants whose points have these properties have exactly one encoding,
and (ii) the only freedom for an aggregated share is the list of map entries `kvs`. -/
theorem C55_points_partial (p1 : G1 → Prop) (p2 : G2 → Prop)
    (h1 : ∀ l P rest, S.c1.codec.dec l = .ok (P, rest) → p1 P → l = S.c1.codec.enc P ++ rest)
    (h2 : ∀ l P rest, S.c2.codec.dec l = .ok (P, rest) → p2 P → l = S.c2.codec.enc P ++ rest) (hf : S.frC.Canonical) :
    (∀ l x rest, (PVSSShare.codec S).dec l = .ok (x, rest) → Spec.corePoints p1 p2 x.core → Spec.proofPoints p2 x.signedProof →
      l = (PVSSShare.codec S).enc x ++ rest) ∧
    (∀ l x rest, (PVSSCore.codec S).dec l = .ok (x, rest) → Spec.corePoints p1 p2 x → l = (PVSSCore.codec S).enc x ++ rest) ∧
    (∀ l x rest, (SignedProof.codec S).dec l = .ok (x, rest) → Spec.proofPoints p2 x →
      l = (SignedProof.codec S).enc x ++ rest) ∧
    (∀ l x rest, (Config.codec S).dec l = .ok (x, rest) → p1 x.srs.g1 → p2 x.srs.g2 → p2 x.srs.g2Prime →
      l = (Config.codec S).enc x ++ rest) ∧
    (∀ l x rest, (Participant.codec S).dec l = .ok (x, rest) → p1 x.pkSig → l = (Participant.codec S).enc x ++ rest) ∧
    (∀ l x rest, (AggShare.codec S).dec l = .ok (x, rest) → ∃ kvs : List (ℕ × (SignedProof r G2 × UInt64)),
      x.contributions = BMap.ofList kvs ∧
      (Spec.corePoints p1 p2 x.core → (∀ kv ∈ kvs, Spec.proofPoints p2 kv.2.1) →
        l = u64.enc x.numParticipants ++ (u64.enc x.degree ++ ((PVSSCore.codec S).enc x.core ++ (u64.enc kvs.length ++
          ((kvs.map (prod u64 (prod (SignedProof.codec S) weight)).enc).flatten ++ rest)))) ∧
        (kvs.Pairwise (fun a b => a.1 < b.1) → l = (AggShare.codec S).enc x ++ rest))) := by
  have hc := core_canonicalOn (S := S) h1 h2
  have hs := signedProof_canonicalOn (S := S) h2 hf
  refine ⟨fun l x rest h a b => iso_canonicalOn (prod_canonicalOn (u64_canonical.on fun _ => True)
      (prod_canonicalOn hc hs)) (fun _ => rfl) l x rest h ⟨trivial, a, b⟩, hc, hs,
    fun l x rest h a b c => iso_canonicalOn (prod_canonicalOn (iso_canonicalOn (prod_canonicalOn h1 (prod_canonicalOn h2 h2))
      fun _ => rfl) ((prod_canonical u64_canonical u64_canonical).on fun _ => True)) (fun _ => rfl) l x rest h
      ⟨⟨a, b, c⟩, trivial⟩,
    fun l x rest h a => iso_canonicalOn (prod_canonicalOn (phantom_canonical.on fun _ => True)
      (prod_canonicalOn (u64_canonical.on fun _ => True) (prod_canonicalOn h1 (publicKey_canonical.on fun _ => True))))
      (fun _ => rfl) l x rest h ⟨trivial, trivial, a, trivial⟩, ?_⟩
  intro l x rest h
  simp only [AggShare.codec, iso] at h
  rw [Res.bind_eq_ok] at h
  obtain ⟨⟨x', l'⟩, ha, h⟩ := h
  obtain ⟨rfl, rfl⟩ := Prod.mk.inj (Res.ok.inj h)
  simp only [prod] at ha
  rw [Res.bind_eq_ok] at ha
  obtain ⟨⟨n, l1⟩, ha1, ha⟩ := ha
  simp only at ha
  rw [Res.bind_eq_ok] at ha
  obtain ⟨⟨y, l2⟩, ha2, ha⟩ := ha
  obtain ⟨rfl, rfl⟩ := Prod.mk.inj (Res.ok.inj ha)
  rw [Res.bind_eq_ok] at ha2
  obtain ⟨⟨d, l3⟩, ha3, ha2⟩ := ha2
  simp only at ha2
  rw [Res.bind_eq_ok] at ha2
  obtain ⟨⟨z, l4⟩, ha4, ha2⟩ := ha2
  obtain ⟨rfl, rfl⟩ := Prod.mk.inj (Res.ok.inj ha2)
  rw [Res.bind_eq_ok] at ha4
  obtain ⟨⟨c, l5⟩, ha5, ha4⟩ := ha4
  simp only at ha4
  rw [Res.bind_eq_ok] at ha4
  obtain ⟨⟨mp, l6⟩, ha6, ha4⟩ := ha4
  obtain ⟨rfl, rfl⟩ := Prod.mk.inj (Res.ok.inj ha4)
  simp only [bmap] at ha6
  rw [Res.bind_eq_ok] at ha6
  obtain ⟨⟨m, l7⟩, ha7, ha6⟩ := ha6
  simp only at ha6
  rw [Res.bind_eq_ok] at ha6
  obtain ⟨⟨kvs, l8⟩, ha8, ha6⟩ := ha6
  obtain ⟨rfl, rfl⟩ := Prod.mk.inj (Res.ok.inj ha6)
  have e1 := u64_canonical _ _ _ ha1
  have e3 := u64_canonical _ _ _ ha3
  have e7 := u64_canonical _ _ _ ha7
  refine ⟨kvs, rfl, fun hcp hkp => ?_⟩
  have e5 := hc _ _ _ ha5 hcp
  have hlen := decN_length _ _ _ _ ha8
  have hl8 := decN_canonicalOn (prod_canonicalOn (u64_canonical.on fun _ => True)
    (prod_canonicalOn hs (weight_canonical.on fun _ => True))) _ _ _ _ ha8 fun kv hkv => ⟨trivial, hkp kv hkv, trivial⟩
  have key : l = u64.enc n ++ (u64.enc d ++ ((PVSSCore.codec S).enc c ++ (u64.enc kvs.length ++
        ((kvs.map (prod u64 (prod (SignedProof.codec S) weight)).enc).flatten ++ l8)))) := by
    rw [e1, e3, e5, e7, hl8, hlen]
  refine ⟨key, fun hs => ?_⟩
  have hof : BMap.ofList kvs = ⟨kvs, hs⟩ := BMap.ofList_entries ⟨kvs, hs⟩
  rw [key]
  simp [AggShare.codec, iso, prod, bmap, hof, BMap.entries]

/-- **C55, the part that holds**: given canonical codecs of points and scalars, (i) shares, cores, signed proofs,
configurations and participants have exactly one encoding, and (ii) the only freedom for an aggregated share is the list
of map entries `kvs`: when it is strictly increasing in the key the bytes are the serialization. -/
theorem C55_partial (h1 : S.c1.codec.Canonical) (h2 : S.c2.codec.Canonical) (hf : S.frC.Canonical) :
    (∀ l x rest, (PVSSShare.codec S).dec l = .ok (x, rest) → l = (PVSSShare.codec S).enc x ++ rest) ∧
    (∀ l x rest, (PVSSCore.codec S).dec l = .ok (x, rest) → l = (PVSSCore.codec S).enc x ++ rest) ∧
    (∀ l x rest, (SignedProof.codec S).dec l = .ok (x, rest) → l = (SignedProof.codec S).enc x ++ rest) ∧
    (∀ l x rest, (Config.codec S).dec l = .ok (x, rest) → l = (Config.codec S).enc x ++ rest) ∧
    (∀ l x rest, (Participant.codec S).dec l = .ok (x, rest) → l = (Participant.codec S).enc x ++ rest) ∧
    (∀ l x rest, (AggShare.codec S).dec l = .ok (x, rest) → ∃ kvs : List (ℕ × (SignedProof r G2 × UInt64)),
      x.contributions = BMap.ofList kvs ∧
      l = u64.enc x.numParticipants ++ (u64.enc x.degree ++ ((PVSSCore.codec S).enc x.core ++ (u64.enc kvs.length ++
        ((kvs.map (prod u64 (prod (SignedProof.codec S) weight)).enc).flatten ++ rest)))) ∧
      (kvs.Pairwise (fun a b => a.1 < b.1) → l = (AggShare.codec S).enc x ++ rest)) := by
  obtain ⟨a1, a2, a3, a4, a5, a6⟩ := C55_points_partial S (fun _ => True) (fun _ => True) (fun l P rest h _ => h1 l P rest h)
    (fun l P rest h _ => h2 l P rest h) hf
  refine ⟨fun l x rest h => a1 l x rest h ⟨fun _ _ => trivial, fun _ _ => trivial⟩ ⟨trivial, trivial⟩,
    fun l x rest h => a2 l x rest h ⟨fun _ _ => trivial, fun _ _ => trivial⟩, fun l x rest h => a3 l x rest h ⟨trivial, trivial⟩,
    fun l x rest h => a4 l x rest h trivial trivial trivial, fun l x rest h => a5 l x rest h trivial, fun l x rest h => ?_⟩
  obtain ⟨kvs, b1, b2⟩ := a6 l x rest h
  exact ⟨kvs, b1, b2 ⟨fun _ _ => trivial, fun _ _ => trivial⟩ fun _ _ => ⟨trivial, trivial⟩⟩

theorem Toy.frCodec_canonical : (Toy.frCodec r).Canonical := by
  intro l x rest h
  simp only [Toy.frCodec] at h ⊢
  split at h
  · cases h
  · rename_i hl
    split at h
    · rename_i hv
      obtain ⟨rfl, rfl⟩ := Prod.mk.inj (Res.ok.inj h)
      have h8 : (l.take 32).length = 32 := by simp; omega
      have := leBytes_leVal (l.take 32)
      rw [h8] at this
      rw [ZMod.val_natCast_of_lt hv, this, List.take_append_drop]
    · cases h

/-- Non-vacuity of C55: the toy suite satisfies both the codec laws and canonicity, so the claim fails there while the
partial theorem applies. -/
example : ¬ C55_claim (Toy.suite 13) ∧ (Toy.suite 13).c1.codec.Canonical ∧ (Toy.suite 13).frC.Canonical :=
  ⟨C55_false _ 32 32 32 (Toy.codecLaws 13 (by omega)), Toy.frCodec_canonical, Toy.frCodec_canonical⟩

end Verif
