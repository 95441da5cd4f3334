import Verif.Props.EdGroup

/-!
# Multiplying by eight makes batch and single verification agree: C124

C98 is false of the code: `verify_batch` lets keys of small order pass, and the two equations differ by points of small order. Here points of
small order are refused in both, and both equations are multiplied by the cofactor, as RFC 8032 has it.
-/

open Finset

namespace Verif

open WeierstrassCurve

variable (sha : List UInt8 → Bytes 64) (zs : List (List UInt8) → List (Bytes 64) → List (Bytes 32) → ℕ → ℕ)

/-- The points of a vote: the first half of the signature and the key. Neither has small order, and the number is reduced. -/
def Spec.VotePoints (v : PublicKey × Signature) (R A : edW.Point) : Prop :=
  edDecompress v.2.part1 = some R ∧ edDecompress v.1.bytes = some A ∧ Codec.leVal v.2.part2.1 < edL ∧ 8 • R ≠ 0 ∧ 8 • A ≠ 0

/-- Single verification with the cofactor, `8 s B = 8 (R + k A)`. -/
def Spec.CofVerify (d : Digest) (v : PublicKey × Signature) : Prop :=
  ∃ R A, Spec.VotePoints v R A ∧ 8 • (Codec.leVal v.2.part2.1 • edBase) = 8 • (R + Spec.edK sha d v • A)

/-- Batch verification with the cofactor: the sum of `verify_batch`, times eight. -/
def Spec.CofBatch (z : ℕ → ℕ) (d : Digest) (votes : List (PublicKey × Signature)) : Prop :=
  (∀ v ∈ votes, ∃ R A, Spec.VotePoints v R A) ∧ ∃ P, (ed25519 sha).batchSum z 0 (Spec.votesOf d votes) = some P ∧ 8 • P = 0

/-! ### in exponents -/

theorem ed_eight_eq (a a' j j' : ℕ) : 8 • (a • edBase + j • edT) = 8 • (a' • edBase + j' • edT) ↔ a ≡ a' [MOD edL] := by
  have e : ∀ a j : ℕ, 8 • (a • edBase + j • edT) = (8 * a) • edBase + (8 * j) • edT := fun a j => by
    rw [nsmul_add, ← mul_nsmul, ← mul_nsmul, mul_comm a, mul_comm j]
  rw [e, e, ed_combination_eq]
  constructor
  · intro h
    exact Nat.ModEq.cancel_left_of_coprime (by decide +kernel) h.1
  · intro h
    refine ⟨h.mul_left 8, ?_⟩
    rw [Nat.ModEq, Nat.mul_mod_right, Nat.mul_mod_right]

theorem cofVerify_iff (d : Digest) (v : PublicKey × Signature) (a u r w : ℕ)
    (hA : edDecompress v.1.bytes = some (a • edBase + u • edT)) (hR : edDecompress v.2.part1 = some (r • edBase + w • edT)) :
    Spec.CofVerify sha d v ↔ Codec.leVal v.2.part2.1 < edL ∧ ¬ edL ∣ a ∧ ¬ edL ∣ r ∧
      Codec.leVal v.2.part2.1 ≡ r + Spec.edK sha d v * a [MOD edL] := by
  have e : r • edBase + w • edT + Spec.edK sha d v • (a • edBase + u • edT) =
      (r + Spec.edK sha d v * a) • edBase + (w + Spec.edK sha d v * u) • edT := by
    rw [nsmul_add, ← mul_nsmul, ← mul_nsmul, mul_comm a, mul_comm u, add_nsmul, add_nsmul]
    abel
  have e' : ∀ s : ℕ, s • edBase = s • edBase + 0 • edT := fun s => by rw [zero_nsmul, add_zero]
  constructor
  · rintro ⟨R, A, ⟨h1, h2, h3, h4, h5⟩, h6⟩
    obtain rfl := Option.some.inj (hR.symm.trans h1)
    obtain rfl := Option.some.inj (hA.symm.trans h2)
    rw [Ne, ed_eight_combination] at h4 h5
    rw [e, e' (Codec.leVal v.2.part2.1), ed_eight_eq] at h6
    exact ⟨h3, h5, h4, h6⟩
  · rintro ⟨h3, h5, h4, h6⟩
    refine ⟨_, _, ⟨hR, hA, h3, by rwa [Ne, ed_eight_combination], by rwa [Ne, ed_eight_combination]⟩, ?_⟩
    rw [e, e' (Codec.leVal v.2.part2.1), ed_eight_eq]
    exact h6

theorem cofBatch_iff (z : ℕ → ℕ) (d : Digest) (votes : List (PublicKey × Signature)) (a u r w : Fin votes.length → ℕ)
    (h : ∀ i, edDecompress votes[i].1.bytes = some (a i • edBase + u i • edT) ∧
      edDecompress votes[i].2.part1 = some (r i • edBase + w i • edT)) :
    Spec.CofBatch sha z d votes ↔ (∀ i : Fin votes.length, Codec.leVal votes[i].2.part2.1 < edL ∧ ¬ edL ∣ a i ∧ ¬ edL ∣ r i) ∧
      ∑ i : Fin votes.length, z i * (r i + Spec.edK sha d votes[i] * a i) ≡
        ∑ i : Fin votes.length, z i * Codec.leVal votes[i].2.part2.1 [MOD edL] := by
  have hpts : (∀ v ∈ votes, ∃ R A, Spec.VotePoints v R A) ↔
      ∀ i : Fin votes.length, Codec.leVal votes[i].2.part2.1 < edL ∧ ¬ edL ∣ a i ∧ ¬ edL ∣ r i := by
    constructor
    · intro hv i
      obtain ⟨R, A, h1, h2, h3, h4, h5⟩ := hv votes[i] (List.getElem_mem _)
      obtain rfl := Option.some.inj ((h i).2.symm.trans h1)
      obtain rfl := Option.some.inj ((h i).1.symm.trans h2)
      rw [Ne, ed_eight_combination] at h4 h5
      exact ⟨h3, h5, h4⟩
    · intro hi v hv
      obtain ⟨i, hlt, rfl⟩ := List.getElem_of_mem hv
      obtain ⟨h3, h5, h4⟩ := hi ⟨i, hlt⟩
      exact ⟨_, _, (h ⟨i, hlt⟩).2, (h ⟨i, hlt⟩).1, h3, by rwa [Ne, ed_eight_combination], by rwa [Ne, ed_eight_combination]⟩
  unfold Spec.CofBatch
  rw [hpts, batch_sum sha d z votes a u r w h]
  refine and_congr Iff.rfl ?_
  simp only [Option.some.injEq, exists_eq_left']
  rw [nsmul_sub, sub_eq_zero]
  have e' : ∀ s : ℕ, s • edBase = s • edBase + 0 • edT := fun s => by rw [zero_nsmul, add_zero]
  rw [e' (∑ i : Fin votes.length, _ % edL), ed_eight_eq]
  have hl : ∑ i : Fin votes.length, (z i * r i + Spec.edK sha d votes[i] * z i % edL * a i) ≡
      ∑ i : Fin votes.length, z i * (r i + Spec.edK sha d votes[i] * a i) [MOD edL] := by
    refine modEq_sum fun i => ?_
    rw [mul_add, show z i * (Spec.edK sha d votes[i] * a i) = Spec.edK sha d votes[i] * z i * a i by ring]
    exact ((Nat.mod_modEq _ _).mul_right _).add_left _
  have hr : ∑ i : Fin votes.length, z i * Codec.leVal votes[i].2.part2.1 % edL ≡
      ∑ i : Fin votes.length, z i * Codec.leVal votes[i].2.part2.1 [MOD edL] := modEq_sum fun i => Nat.mod_modEq _ _
  exact ⟨fun h => hl.symm.trans (h.trans hr), fun h => hl.trans (h.trans hr.symm)⟩

/-- All points of a list of votes in exponents. -/
theorem votes_exponents (votes : List (PublicKey × Signature)) (h : ∀ v ∈ votes, ∃ R A, Spec.VotePoints v R A) :
    ∃ a u r w : Fin votes.length → ℕ, ∀ i, edDecompress votes[i].1.bytes = some (a i • edBase + u i • edT) ∧
      edDecompress votes[i].2.part1 = some (r i • edBase + w i • edT) := by
  have key : ∀ i : Fin votes.length, ∃ a u r w : ℕ, edDecompress votes[i].1.bytes = some (a • edBase + u • edT) ∧
      edDecompress votes[i].2.part1 = some (r • edBase + w • edT) := by
    intro i
    obtain ⟨R, A, h1, h2, -⟩ := h votes[i] (List.getElem_mem _)
    obtain ⟨a, -, u, -, rfl⟩ := ed_decompose A
    obtain ⟨r, -, w, -, rfl⟩ := ed_decompose R
    exact ⟨a, u, r, w, h2, h1⟩
  choose a u r w hk using key
  exact ⟨a, u, r, w, hk⟩

/-! ### C124 -/

/-- **C124** (compatibility). What `Signature::verify` accepts is accepted with the cofactor, and what is accepted with the cofactor for a
key and a first half that are multiples of the base point is accepted by `Signature::verify`. -/
theorem C124_verify (d : Digest) (v : PublicKey × Signature) :
    (Signature.verify ((ed25519 sha).ops zs) v.2 d v.1 = .ok () → Spec.CofVerify sha d v) ∧
    (Spec.CofVerify sha d v → (∃ a r : ℕ, edDecompress v.1.bytes = some (a • edBase) ∧ edDecompress v.2.part1 = some (r • edBase)) →
      Signature.verify ((ed25519 sha).ops zs) v.2 d v.1 = .ok ()) := by
  have h1 : (ed25519 sha).decompress = edDecompress := by rw [ed25519]
  constructor
  · intro h
    obtain ⟨R, A, hR, hA, -⟩ := (C97_verify zs v.2 d v.1).1 h
    rw [h1] at hR hA
    obtain ⟨a, -, u, -, rfl⟩ := ed_decompose A
    obtain ⟨r, -, w, -, rfl⟩ := ed_decompose R
    obtain ⟨h3, h4, h5, h6, -⟩ := (C116_verify sha zs v.2 d v.1 a u r w hA hR).1 h
    exact (cofVerify_iff sha d v a u r w hA hR).2 ⟨h3, h4, h5, h6⟩
  · rintro h ⟨a, r, hA, hR⟩
    have e' : ∀ s : ℕ, s • edBase = s • edBase + 0 • edT := fun s => by rw [zero_nsmul, add_zero]
    rw [e' a] at hA
    rw [e' r] at hR
    obtain ⟨h3, h4, h5, h6⟩ := (cofVerify_iff sha d v a 0 r 0 hA hR).1 h
    exact (C116_verify sha zs v.2 d v.1 a 0 r 0 hA hR).2 ⟨h3, h4, h5, h6, by rw [mul_zero]; rfl⟩

/-- **C124** (complete). If every vote passes, the batch passes with all weights. -/
theorem C124_complete (z : ℕ → ℕ) (d : Digest) (votes : List (PublicKey × Signature)) (h : ∀ v ∈ votes, Spec.CofVerify sha d v) :
    Spec.CofBatch sha z d votes := by
  obtain ⟨a, u, r, w, hp⟩ := votes_exponents votes fun v hv => by
    obtain ⟨R, A, hv, -⟩ := h v hv
    exact ⟨R, A, hv⟩
  have hk : ∀ i : Fin votes.length, _ := fun i => (cofVerify_iff sha d votes[i] (a i) (u i) (r i) (w i) (hp i).1 (hp i).2).1
    (h votes[i] (List.getElem_mem _))
  rw [cofBatch_iff sha z d votes a u r w hp]
  exact ⟨fun i => ⟨(hk i).1, (hk i).2.1, (hk i).2.2.1⟩, modEq_sum fun i => (hk i).2.2.2.symm.mul_left _⟩

open Classical in
/-- **C124** (sound). If a vote does not pass, the batch passes for at most a `2^-128` fraction of the 128-bit weights. -/
theorem C124_sound (d : Digest) (votes : List (PublicKey × Signature)) (h : ∃ v ∈ votes, ¬ Spec.CofVerify sha d v) :
    (univ.filter fun z : Fin votes.length → Fin (2 ^ 128) =>
      Spec.CofBatch sha (Spec.weights z [] [] []) d votes).card * 2 ^ 128 ≤ (2 ^ 128) ^ votes.length := by
  by_cases hpts : ∀ v ∈ votes, ∃ R A, Spec.VotePoints v R A
  · obtain ⟨a, u, r, w, hp⟩ := votes_exponents votes hpts
    obtain ⟨v, hv, hbad⟩ := h
    obtain ⟨j, hj, rfl⟩ := List.getElem_of_mem hv
    have hs : ∀ i : Fin votes.length, Codec.leVal votes[i].2.part2.1 < edL := fun i => by
      obtain ⟨R, A, -, -, h3, -⟩ := hpts votes[i] (List.getElem_mem _)
      exact h3
    let c : Fin votes.length → ℕ := fun i => r i + Spec.edK sha d votes[i] * a i + (edL - Codec.leVal votes[i].2.part2.1)
    have hc : ∀ i, (edL ∣ c i ↔ Codec.leVal votes[i].2.part2.1 ≡ r i + Spec.edK sha d votes[i] * a i [MOD edL]) := by
      intro i
      have e : Codec.leVal votes[i].2.part2.1 + c i = r i + Spec.edK sha d votes[i] * a i + edL := by
        have := hs i
        simp only [c]
        omega
      have hl : r i + Spec.edK sha d votes[i] * a i + edL ≡ r i + Spec.edK sha d votes[i] * a i [MOD edL] := Nat.add_mod_right _ _
      constructor
      · intro hd
        have h0 : Codec.leVal votes[i].2.part2.1 + c i ≡ Codec.leVal votes[i].2.part2.1 + 0 [MOD edL] :=
          ((Nat.modEq_zero_iff_dvd).2 hd).add_left _
        rw [e, add_zero] at h0
        exact h0.symm.trans hl
      · intro hm
        refine (Nat.modEq_zero_iff_dvd).1 (Nat.ModEq.add_left_cancel' (Codec.leVal votes[i].2.part2.1) ?_)
        rw [e, add_zero]
        exact hl.trans hm.symm
    have hne : c ⟨j, hj⟩ • (ed25519 sha).base ≠ 0 := by
      rw [Ne, (C100 sha).smul_eq_zero, hc]
      intro hm
      obtain ⟨R, A, h1, h2, h3, h4, h5⟩ := hpts _ (List.getElem_mem hj)
      obtain rfl := Option.some.inj ((hp ⟨j, hj⟩).2.symm.trans h1)
      obtain rfl := Option.some.inj ((hp ⟨j, hj⟩).1.symm.trans h2)
      rw [Ne, ed_eight_combination] at h4 h5
      exact hbad ((cofVerify_iff sha d _ _ _ _ _ (hp ⟨j, hj⟩).1 (hp ⟨j, hj⟩).2).2 ⟨h3, h5, h4, hm⟩)
    refine le_trans (Nat.mul_le_mul_right _ (card_le_card fun z hz => ?_)) (EdCurve.card_weights (C100 sha) (by decide +kernel)
      (fun i => c i • (ed25519 sha).base) ⟨j, hj⟩ _ rfl hne)
    rw [mem_filter] at hz ⊢
    refine ⟨mem_univ _, ?_⟩
    have hm := ((cofBatch_iff sha _ d votes a u r w hp).1 hz.2).2
    have hw : ∀ i : Fin votes.length, Spec.weights z [] [] [] i = z i := fun i => by simp [Spec.weights]
    simp only [hw] at hm
    simp only [← mul_nsmul']
    rw [Finset.sum_nsmul_assoc, (C100 sha).smul_eq_zero]
    have e : ∑ i, (z i : ℕ) * Codec.leVal votes[i].2.part2.1 + ∑ i, (z i : ℕ) * c i =
        ∑ i, (z i : ℕ) * (r i + Spec.edK sha d votes[i] * a i) + edL * ∑ i, (z i : ℕ) := by
      rw [mul_sum, ← sum_add_distrib, ← sum_add_distrib]
      refine sum_congr rfl fun i _ => ?_
      rw [← mul_add, mul_comm edL, ← mul_add]
      congr 1
      have := hs i
      simp only [c]
      omega
    refine (Nat.modEq_zero_iff_dvd).1 (Nat.ModEq.add_left_cancel' (∑ i, (z i : ℕ) * Codec.leVal votes[i].2.part2.1) ?_)
    rw [e, add_zero]
    exact (Nat.add_mul_mod_self_left _ _ _ : _ ≡ _ [MOD edL]).trans hm
  · rw [filter_eq_empty_iff.2 fun z _ hz => hpts hz.1, card_empty, zero_mul]
    exact Nat.zero_le _

/-! ### examples -/

/-- A hash with challenge 5 for everything. -/
def Toy.five : List UInt8 → Bytes 64 := fun _ => ⟨Codec.leBytes 64 5, Codec.length_leBytes _ _⟩

/-- The vote with key `B`, first half `B + T` where `T` has order eight, and number `n`. -/
noncomputable def Toy.mixedVote (n : ℕ) : PublicKey × Signature :=
  (⟨(ed25519 Toy.five).compress (1 • edBase + 0 • edT)⟩,
    ⟨(ed25519 Toy.five).compress (1 • edBase + 1 • edT), ⟨Codec.leBytes 32 n, Codec.length_leBytes _ _⟩⟩)

theorem Toy.mixedVote_points (n : ℕ) : edDecompress (Toy.mixedVote n).1.bytes = some (1 • edBase + 0 • edT) ∧
    edDecompress (Toy.mixedVote n).2.part1 = some (1 • edBase + 1 • edT) := by
  have h1 : (ed25519 Toy.five).decompress = edDecompress := by rw [ed25519]
  rw [← h1]
  exact ⟨(C100 Toy.five).round _, (C100 Toy.five).round _⟩

theorem Toy.mixedVote_k (d : Digest) (n : ℕ) : Spec.edK Toy.five d (Toy.mixedVote n) = 5 := by
  have : EdCurve.wide (⟨Codec.leBytes 64 5, Codec.length_leBytes _ _⟩ : Bytes 64) = 5 := by decide +kernel
  exact this

/-- With number `6 = 1 + 5 * 1` the vote is refused by the code's `verify`, but passes with the cofactor, alone and in a batch with all weights. -/
example (d : Digest) (z : ℕ → ℕ) : Signature.verify ((ed25519 Toy.five).ops zs) (Toy.mixedVote 6).2 d (Toy.mixedVote 6).1 ≠ .ok () ∧
    Spec.CofVerify Toy.five d (Toy.mixedVote 6) ∧ Spec.CofBatch Toy.five z d [Toy.mixedVote 6, Toy.mixedVote 6] := by
  obtain ⟨hA, hR⟩ := Toy.mixedVote_points 6
  have hk := Toy.mixedVote_k d 6
  have hs : Codec.leVal (Toy.mixedVote 6).2.part2.1 = 6 := by
    have : Codec.leVal (Codec.leBytes 32 6) = 6 := by decide +kernel
    exact this
  have hL : ¬ edL ∣ 1 := by decide +kernel
  have h6 : 6 < edL := by decide +kernel
  have hv : Spec.CofVerify Toy.five d (Toy.mixedVote 6) := by
    rw [cofVerify_iff Toy.five d _ 1 0 1 1 hA hR, hs, hk]
    exact ⟨h6, hL, hL, rfl⟩
  refine ⟨fun h => ?_, hv, C124_complete Toy.five z d _ fun v hm => ?_⟩
  · have := ((C116_verify Toy.five zs _ d _ 1 0 1 1 hA hR).1 h).2.2.2.2
    rw [mul_zero] at this
    exact absurd this (by decide)
  · obtain rfl : v = Toy.mixedVote 6 := by simpa using hm
    exact hv

open Classical in
/-- With number 7 it passes neither alone nor, but for a `2^-128` fraction of the weights, in a batch with a good vote. -/
example (d : Digest) : ¬ Spec.CofVerify Toy.five d (Toy.mixedVote 7) ∧
    (univ.filter fun z : Fin 2 → Fin (2 ^ 128) =>
      Spec.CofBatch Toy.five (Spec.weights z [] [] []) d [Toy.mixedVote 6, Toy.mixedVote 7]).card * 2 ^ 128 ≤ (2 ^ 128) ^ 2 := by
  obtain ⟨hA, hR⟩ := Toy.mixedVote_points 7
  have hs : Codec.leVal (Toy.mixedVote 7).2.part2.1 = 7 := by
    have : Codec.leVal (Codec.leBytes 32 7) = 7 := by decide +kernel
    exact this
  have h7 : ¬ 7 ≡ 1 + 5 * 1 [MOD edL] := by decide +kernel
  have hv : ¬ Spec.CofVerify Toy.five d (Toy.mixedVote 7) := by
    rw [cofVerify_iff Toy.five d _ 1 0 1 1 hA hR, hs, Toy.mixedVote_k]
    exact fun h => h7 h.2.2.2
  exact ⟨hv, C124_sound Toy.five d [Toy.mixedVote 6, Toy.mixedVote 7] ⟨_, by simp, hv⟩⟩

/-- The vote of the identity, which refutes C98, is refused in the batch whatever the weights. -/
example (d : Digest) (z : ℕ → ℕ) : ¬ Spec.CofBatch sha z d [Spec.identityVote (ed25519 sha)] := by
  have h1 : (ed25519 sha).decompress = edDecompress := by rw [ed25519]
  rintro ⟨h, -⟩
  obtain ⟨R, A, hR, -, -, h8, -⟩ := h _ (List.mem_singleton_self _)
  rw [← h1] at hR
  obtain rfl := Option.some.inj (((C100 sha).round 0).symm.trans hR)
  exact h8 (nsmul_zero _)

end Verif
