import Verif.Model.Default
import Verif.Props.Ed25519

/-!
# Default keys and signatures, and the order of keys (C108)
-/

namespace Verif

open Finset EdCurve

variable (sha : List UInt8 → Bytes 64) (zs : List (List UInt8) → List (Bytes 64) → List (Bytes 32) → ℕ → ℕ)

/-- The number written by bytes with the highest first. -/
def Spec.beNumber (l : List UInt8) : ℕ := l.foldl (fun n b => 256 * n + b.toNat) 0

theorem leVal_zero (n : ℕ) : Codec.leVal (Bytes.zero n).1 = 0 := by
  show Codec.leVal (List.replicate n 0) = 0
  induction n with
  | zero => rfl
  | succ n ih => rw [List.replicate_succ, Codec.leVal, ih]; rfl

theorem ed_small_double {P : edW.Point} (h : (toEd P).2 = 0) : toEd (P + P) = (0, -1) ∧ toEd (P + P + (P + P)) = (0, 1) := by
  have hx : -(toEd P).1 ^ 2 = 1 := by
    have := toEd_eq P
    rw [EdEq, h] at this
    simpa using this
  have h1 : toEd (P + P) = (0, -1) := by
    have hP : toEd P = ((toEd P).1, 0) := Prod.ext rfl h
    rw [(C100_add P P _ _ _ _ hP hP).2.2.1]
    simp only [mul_zero, add_zero, zero_add, sub_zero, div_one]
    rw [← hx]
    exact Prod.ext rfl (by ring)
  refine ⟨h1, ?_⟩
  rw [(C100_add (P + P) (P + P) _ _ _ _ h1 h1).2.2.1]
  simp

theorem ed_order_four {P : edW.Point} (h : (toEd P).2 = 0) (n : ℕ) : n • P = 0 ↔ 4 ∣ n := by
  obtain ⟨h2, h4⟩ := ed_small_double h
  have e4 : 4 • P = 0 := by
    have : 4 • P = P + P + (P + P) := by rw [show 4 = 2 + 2 from rfl, add_smul, two_smul]
    rw [this]
    exact toEd_inj h4
  have e2 : 2 • P ≠ 0 := by
    rw [two_smul]
    intro e
    rw [e] at h2
    have h : (1 : EdF) = -1 := congrArg Prod.snd h2
    exact edF_two (by linear_combination h)
  have : addOrderOf P = 2 ^ 2 :=
    addOrderOf_eq_prime_pow (n := 1) (by simpa using e2) (by simpa using e4)
  rw [← addOrderOf_dvd_iff_nsmul_eq_zero, this]
  norm_num

/-- The even square root of `-1`. -/
def Spec.edI : ℕ := 19681161376707505956807079304988542015446066515923890162744021073123829784752

theorem default_decompress : ∃ P, edDecompress (Bytes.zero 32) = some P ∧ toEd P = (((Spec.edI : ℕ) : EdF), 0) := by
  have hi : ((Spec.edI : ℕ) : EdF) ^ 2 + 1 = 0 := by
    have := edF_cast (m := Spec.edI ^ 2 + 1) (n := 0) (by decide +kernel)
    push_cast at this
    exact this
  obtain ⟨P, hP⟩ := toEd_surj (x := ((Spec.edI : ℕ) : EdF)) (y := 0) (by rw [EdEq]; linear_combination -hi)
  refine ⟨P, (edDecompress_iff _ _).2 ?_, hP⟩
  rw [leVal_zero, hP]
  refine ⟨by simp, .inr ?_⟩
  rw [ZMod.val_natCast_of_lt (by decide +kernel)]
  decide +kernel

/-- **C108** (the bytes). Default digest, key and signature are zero bytes. -/
theorem C108_bytes : Digest.default.bytes.1 = List.replicate 32 0 ∧ PublicKey.default.bytes.1 = List.replicate 32 0 ∧
    Signature.default.part1.1 ++ Signature.default.part2.1 = List.replicate 64 0 := ⟨rfl, rfl, rfl⟩

/-- **C108** (the key). The default key parses, as a point of order four. -/
theorem C108_key : (((ed25519 sha).ops zs).pkOk PublicKey.default.bytes = true) ∧
    ∃ P, edDecompress PublicKey.default.bytes = some P ∧ toEd P = (((Spec.edI : ℕ) : EdF), 0) ∧ ∀ n : ℕ, n • P = 0 ↔ 4 ∣ n := by
  obtain ⟨P, h, hP⟩ := default_decompress
  refine ⟨?_, P, h, hP, ed_order_four (by rw [hP])⟩
  have : ((ed25519 sha).ops zs).pkOk = fun b => (edDecompress b).isSome := by simp only [ops, ed25519]
  rw [this]
  show (edDecompress PublicKey.default.bytes).isSome = true
  rw [PublicKey.default, h]; rfl

theorem sig_err {ed : EdOps} {s : Signature} {d : Digest} {pk : PublicKey} (h : s.verify ed d pk ≠ .ok ()) :
    s.verify ed d pk = .err .signatureError := by
  unfold Signature.verify at h ⊢
  split_ifs at h ⊢ <;> first | rfl | exact absurd rfl h

theorem default_small {P : edW.Point} (h : (ed25519 sha).decompress (Bytes.zero 32) = some P) : 8 • P = 0 := by
  obtain ⟨Q, h', hQ⟩ := default_decompress
  have h1 : (ed25519 sha).decompress = edDecompress := by rw [ed25519]
  rw [h1, h'] at h
  obtain rfl := Option.some.inj h
  exact (ed_order_four (by rw [hQ]) 8).2 (by norm_num)

/-- **C108** (`verify`). No signature is accepted under the default key, and the default signature is accepted under no key. -/
theorem C108_verify (sig : Signature) (d : Digest) (pk : PublicKey) (h : pk = PublicKey.default ∨ sig = Signature.default) :
    Signature.verify ((ed25519 sha).ops zs) sig d pk = .err .signatureError := by
  refine sig_err fun hv => ?_
  obtain ⟨R, A, hR, hA, -, h1, h2, -⟩ := (C97_verify zs _ _ _).1 hv
  rcases h with rfl | rfl
  · exact h2 (default_small sha hA)
  · exact h1 (default_small sha hR)

section

variable {r : ℕ} [Fact r.Prime] {G1 G2 K : Type} [AddCommGroup G1] [Module (ZMod r) G1] [DecidableEq G1] [AddCommGroup G2]
  [Module (ZMod r) G2] [DecidableEq G2] [CommMonoid K] [DecidableEq K]

/-- **C108** (its owner). A participant registered with the default key never contributes: no share under that id is accepted,
and no transcript in which it appears. -/
theorem C108_owner (S : Suite r G1 G2 K) (hS : PairLaws S) (hE : S.ed = (ed25519 sha).ops zs) (m : Mode) (a : Aggregator r G1 G2)
    (id : ℕ) (q : Participant G1) (hq : a.participants.get id = some q) (hd : q.pkEd = PublicKey.default) (rng rng' : Rng r) :
    (∀ sh : PVSSShare r G1 G2, sh.participantId = id → a.shareVerify S m rng sh ≠ .ok rng') ∧
    ∀ ag : AggShare r G1 G2, (∃ x w, ag.contributions.get id = some (x, w)) → a.aggregationVerify S m rng ag ≠ .ok rng' := by
  have key : ∀ p, ¬ Spec.SignedOk S a.config.srs.g2 q.pkEd p := fun p h => by
    have hv : p.signature.verify S.ed ⟨_⟩ q.pkEd = .ok () := (sigVerify_iff _ _ _ _).2 ⟨h.sig_parses, h.pk_parses, h.signature⟩
    rw [hE, C108_verify sha zs _ _ _ (.inl hd)] at hv
    cases hv
  constructor
  · rintro sh rfl h
    obtain ⟨q', hq', -, -, -, -, -, -, hs⟩ := (shareVerify_iff S hS m a rng rng' sh).1 h
    obtain rfl := Option.some.inj (hq.symm.trans hq')
    exact key _ hs
  · rintro ag ⟨x, w, hx⟩ h
    obtain ⟨-, -, _, -, -, hc, -⟩ := (aggregationVerify_iff S hS m a rng rng' ag).1 h
    obtain ⟨q', hq', hs⟩ := hc _ _ _ hx
    obtain rfl := Option.some.inj (hq.symm.trans hq')
    exact key _ hs

end

theorem default_batch {E : Type} [AddCommGroup E] [DecidableEq E] (C : EdCurve E) (P : E)
    (hd : C.decompress (Bytes.zero 32) = some P) (d : Digest) :
    Signature.verifyBatch (C.ops zs) d [(PublicKey.default, Signature.default)] = .ok () ↔
      (zs [d.bytes.1] [(Bytes.zero 64)] [Bytes.zero 32] 0 +
        wide (C.sha512 (List.replicate 64 0 ++ d.bytes.1)) * zs [d.bytes.1] [Bytes.zero 64] [Bytes.zero 32] 0 % edL) • P = 0 := by
  have hf : Signature.default.flatten = Bytes.zero 64 := rfl
  have h1 : fst32 (Bytes.zero 64) = Bytes.zero 32 := rfl
  have h2 : sOf (Bytes.zero 64) = 0 := leVal_zero 32
  rw [verifyBatch_iff]
  simp only [List.mem_singleton, forall_eq, List.length_singleton, List.replicate_one, List.map_cons, List.map_nil, hf]
  have hv : Spec.votesOf d [(PublicKey.default, Signature.default)] = [(d.bytes.1, Bytes.zero 64, Bytes.zero 32)] := rfl
  rw [hv]
  rw [show PublicKey.default.bytes = Bytes.zero 32 from rfl, show Signature.default.part2 = Bytes.zero 32 from rfl, leVal_zero, hd]
  generalize zs [d.bytes.1] [Bytes.zero 64] [Bytes.zero 32] = z
  have hc : C.challenge (Bytes.zero 32).1 (Bytes.zero 32).1 d.bytes.1 = wide (C.sha512 (List.replicate 64 0 ++ d.bytes.1)) := by
    rw [challenge]
    simp only [Bytes.zero]
    rw [← List.append_assoc, List.replicate_append_replicate]
  simp only [batchSum, batchTerm, h1, h2, hd, hc, Option.bind_eq_bind, Option.bind_some, mul_zero, Nat.zero_mod, zero_nsmul, sub_zero,
    add_zero, Option.isSome_some, Option.some.injEq, and_true]
  rw [← add_smul]
  exact ⟨fun h => h.2, fun h => ⟨edL_pos, h⟩⟩

/-- **C108** (`verify_batch`). A batch of one vote, the default signature under the default key, passes exactly if its weight `z`
and the challenge `k` satisfy `4 ∣ z + (k * z mod L)`. -/
theorem C108_batch (d : Digest) :
    Signature.verifyBatch ((ed25519 sha).ops zs) d [(PublicKey.default, Signature.default)] = .ok () ↔
      4 ∣ zs [d.bytes.1] [(Bytes.zero 64)] [Bytes.zero 32] 0 +
        Codec.leVal (sha (List.replicate 64 0 ++ d.bytes.1)).1 % edL * zs [d.bytes.1] [Bytes.zero 64] [Bytes.zero 32] 0 % edL := by
  obtain ⟨P, h, hP⟩ := default_decompress
  have hd : (ed25519 sha).decompress (Bytes.zero 32) = some P := by
    have h1 : (ed25519 sha).decompress = edDecompress := by rw [ed25519]
    rw [h1, h]
  have hs : (ed25519 sha).sha512 = sha := by rw [ed25519]
  have h4 := ed_order_four (P := P) (by rw [hP])
  have hb := default_batch zs (ed25519 sha) P hd d
  rw [hs] at hb
  exact hb.trans (h4 _)

theorem be_foldl (l : List UInt8) (n : ℕ) : l.foldl (fun n b => 256 * n + b.toNat) n = 256 ^ l.length * n + Spec.beNumber l := by
  unfold Spec.beNumber
  induction l generalizing n with
  | nil => simp
  | cons b l ih =>
    rw [List.foldl_cons, List.foldl_cons, ih, ih (256 * 0 + b.toNat), List.length_cons]
    ring

theorem beNumber_cons (b : UInt8) (l : List UInt8) : Spec.beNumber (b :: l) = 256 ^ l.length * b.toNat + Spec.beNumber l := by
  rw [Spec.beNumber, List.foldl_cons, be_foldl]
  simp

theorem beNumber_lt (l : List UInt8) : Spec.beNumber l < 256 ^ l.length := by
  induction l with
  | nil => simp [Spec.beNumber]
  | cons b l ih =>
    rw [beNumber_cons, List.length_cons, pow_succ]
    have := b.toNat_lt
    nlinarith [show 0 < 256 ^ l.length by positivity]

theorem cmpBytes_eq (a b : List UInt8) (h : a.length = b.length) : cmpBytes a b = compare (Spec.beNumber a) (Spec.beNumber b) := by
  induction a generalizing b with
  | nil =>
    obtain rfl := List.length_eq_zero_iff.1 h.symm
    rfl
  | cons x a ih =>
    match b with
    | y :: b =>
      have hl : a.length = b.length := by simpa using h
      have h1 := beNumber_lt a
      have h2 := beNumber_lt b
      rw [cmpBytes, beNumber_cons, beNumber_cons, ← hl]
      rw [← hl] at h2
      generalize 256 ^ a.length = N at *
      split_ifs with h3 h4
      · have : x.toNat + 1 ≤ y.toNat := UInt8.lt_iff_toNat_lt.1 h3
        exact (compare_lt_iff_lt.2 (by nlinarith)).symm
      · have : y.toNat + 1 ≤ x.toNat := UInt8.lt_iff_toNat_lt.1 h4
        exact (compare_gt_iff_gt.2 (by nlinarith)).symm
      · obtain rfl : x = y := UInt8.le_antisymm (UInt8.not_lt.1 h4) (UInt8.not_lt.1 h3)
        rw [ih b hl]
        rcases lt_trichotomy (Spec.beNumber a) (Spec.beNumber b) with h | h | h
        · rw [compare_lt_iff_lt.2 h, compare_lt_iff_lt.2 (by omega)]
        · rw [h]; simp
        · rw [compare_gt_iff_gt.2 h, compare_gt_iff_gt.2 (by omega)]

/-- **C108** (order). Keys are ordered as the numbers their bytes write with the highest first, and only equal keys compare equal. -/
theorem C108_order (a b : PublicKey) : a.cmp b = compare (Spec.beNumber a.bytes.1) (Spec.beNumber b.bytes.1) ∧
    (a.cmp b = .eq ↔ a = b) := by
  have h := cmpBytes_eq a.bytes.1 b.bytes.1 (a.bytes.2.trans b.bytes.2.symm)
  refine ⟨h, ?_⟩
  constructor
  · intro he
    have : ∀ a b : List UInt8, cmpBytes a b = .eq → a = b := by
      intro a
      induction a with
      | nil => intro b h; cases b with
        | nil => rfl
        | cons => cases h
      | cons x a ih => intro b h; cases b with
        | nil => cases h
        | cons y b =>
          rw [cmpBytes] at h
          split_ifs at h with h3 h4
          rw [UInt8.le_antisymm (UInt8.not_lt.1 h4) (UInt8.not_lt.1 h3), ih b h]
    cases a; cases b
    exact congrArg _ (Subtype.ext (this _ _ he))
  · rintro rfl
    have := cmpBytes_eq a.bytes.1 a.bytes.1 rfl
    simpa [PublicKey.cmp] using this

/-! ### examples -/

/-- With a hash function that is zero, the default vote passes with weight 4 and fails with weight 5. -/
example : Signature.verifyBatch ((ed25519 fun _ => Bytes.zero 64).ops fun _ _ _ _ => 4) Digest.default
      [(PublicKey.default, Signature.default)] = .ok () ∧
    Signature.verifyBatch ((ed25519 fun _ => Bytes.zero 64).ops fun _ _ _ _ => 5) Digest.default
      [(PublicKey.default, Signature.default)] ≠ .ok () := by
  rw [Ne, C108_batch, C108_batch, leVal_zero]
  norm_num

/-- A suite with Ed25519, and an aggregator with a participant under the default key. -/
example : ∃ (S : Suite 13 (ZMod 13) (ZMod 13) (Multiplicative (ZMod 13))) (a : Aggregator 13 (ZMod 13) (ZMod 13)) (q : Participant (ZMod 13)),
    PairLaws S ∧ S.ed = (ed25519 sha).ops zs ∧ a.participants.get 2 = some q ∧ q.pkEd = PublicKey.default := by
  refine ⟨{ Toy.suite 13 with ed := (ed25519 sha).ops zs }, Aggregator.new ⟨⟨1, 1, 1⟩, 1, 4⟩
    (BMap.empty.insert 2 { pkSig := 3, pkEd := PublicKey.default, id := 2 }), _, ?_, rfl, rfl, rfl⟩
  have h := Toy.pairLaws 13
  exact ⟨h.add_left, h.add_right, h.zero_left, h.zero_right, h.nondeg⟩

/-- The first byte weighs most. -/
example : PublicKey.cmp ⟨⟨1 :: List.replicate 31 0, rfl⟩⟩ ⟨⟨0 :: List.replicate 31 255, rfl⟩⟩ = .gt := by decide

end Verif
