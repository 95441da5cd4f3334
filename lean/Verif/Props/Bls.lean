import Verif.Lemmas.Ark
import Verif.Props.Codec
import Verif.Props.Deploy
import Verif.Props.Uniform

/-!
# BLS12-381 satisfies the assumptions (C96)

The curve the crate is written for.  `Verif/Model/Ark.lean` gives its two groups as subgroups of Mathlib's groups of points of a
Weierstrass curve, and the byte formats.  Here: both groups are cyclic of prime order `r`; any bilinear map that is not constant
satisfies the laws of a pairing; the byte formats satisfy the laws of codecs; hash-to-field is unbiased.
-/

open Finset

namespace Verif

open WeierstrassCurve

noncomputable instance : DecidableEq BlsG1 := Classical.decEq _
noncomputable instance : DecidableEq BlsG2 := Classical.decEq _

/-- **C96** (groups). -/
theorem C96_groups : blsP.Prime ∧ blsR.Prime ∧ blsG1 ≠ 0 ∧ blsG2 ≠ 0 ∧
    CyclicGroup blsR BlsG1 ∧ CyclicGroup blsR BlsG2 ∧ Nat.card BlsG1 = blsR ∧ Nat.card BlsG2 = blsR := by
  have := finite_e1
  have := finite_e2
  have card : ∀ (G : Type) [AddCommGroup G] [Module (ZMod blsR) G] [Finite G] (g : G), g ≠ 0 → CyclicGroup blsR G →
      Nat.card G = blsR := by
    intro G _ _ _ g hg hc
    have e : Function.Bijective fun s : ZMod blsR => s • g :=
      ⟨smul_left_injective _ hg, fun Q => (hc g Q hg).imp fun s h => h.symm⟩
    rw [← Nat.card_eq_of_bijective _ e, Nat.card_zmod]
  have h1 : CyclicGroup blsR BlsG1 := fun P Q hP => cyclic_of_card card_e1_lt P Q hP
  have h2 : CyclicGroup blsR BlsG2 := fun P Q hP => cyclic_of_card card_e2_lt P Q hP
  exact ⟨blsP_prime, C61_prime, blsG1_ne_zero, blsG2_ne_zero, h1, h2, card _ _ blsG1_ne_zero h1, card _ _ blsG2_ne_zero h2⟩

variable {K : Type} [CommMonoid K] [DecidableEq K]
  (stream : List UInt8 → List UInt8 → ℕ → UInt8) (shake : List UInt8 → Bytes 32) (ed : EdOps)

omit [DecidableEq K] in
/-- **C96** (pairing). Every map into the units that is additive in both arguments and not trivial on the generators is a
pairing. -/
theorem C96_pair (pair : BlsG1 → BlsG2 → K) (hl : ∀ P P' Q, pair (P + P') Q = pair P Q * pair P' Q)
    (hr : ∀ P Q Q', pair P (Q + Q') = pair P Q * pair P Q') (hu : ∀ P Q, IsUnit (pair P Q)) (hg : pair blsG1 blsG2 ≠ 1) :
    PairLaws (arkSuite pair stream shake ed) := by
  have zl : ∀ Q, pair 0 Q = 1 := fun Q => by
    have := hl 0 0 Q
    rw [add_zero] at this
    exact (hu 0 Q).mul_left_cancel ((mul_one _).trans this).symm
  have zr : ∀ P, pair P 0 = 1 := fun P => by
    have := hr P 0 0
    rw [add_zero] at this
    exact (hu P 0).mul_left_cancel ((mul_one _).trans this).symm
  have nl : ∀ (n : ℕ) P Q, pair (n • P) Q = pair P Q ^ n := by
    intro n P Q
    induction n with
    | zero => rw [zero_smul, zl, pow_zero]
    | succ n ih => rw [succ_nsmul, hl, ih, pow_succ]
  have nr : ∀ (n : ℕ) P Q, pair P (n • Q) = pair P Q ^ n := by
    intro n P Q
    induction n with
    | zero => rw [zero_smul, zr, pow_zero]
    | succ n ih => rw [succ_nsmul, hr, ih, pow_succ]
  refine ⟨hl, hr, zl, zr, fun P Q h => ?_⟩
  by_contra hne
  rw [not_or] at hne
  obtain ⟨-, -, -, -, c1, c2, -⟩ := C96_groups
  obtain ⟨s, hs⟩ := c1 P blsG1 hne.1
  obtain ⟨t, ht⟩ := c2 Q blsG2 hne.2
  apply hg
  have h : pair P Q = 1 := h
  rw [hs, ht, ← ZMod.natCast_zmod_val s, ← ZMod.natCast_zmod_val t, Nat.cast_smul_eq_nsmul, Nat.cast_smul_eq_nsmul, nl, nr, h,
    one_pow, one_pow]

/-- **C96** (pairing, existence). Such a map exists: the hypotheses on the pairing can be met at these groups. -/
theorem C96_pair_exists : ∃ pair : BlsG1 → BlsG2 → Multiplicative (ZMod blsR),
    (∀ P P' Q, pair (P + P') Q = pair P Q * pair P' Q) ∧ (∀ P Q Q', pair P (Q + Q') = pair P Q * pair P Q') ∧
      pair blsG1 blsG2 ≠ 1 := by
  obtain ⟨-, -, g1, g2, c1, c2, -⟩ := C96_groups
  choose l1 h1 using fun P => c1 blsG1 P g1
  choose l2 h2 using fun Q => c2 blsG2 Q g2
  have a1 : ∀ P P', l1 (P + P') = l1 P + l1 P' := fun P P' =>
    smul_left_injective (ZMod blsR) g1 (by simp only [add_smul, ← h1])
  have a2 : ∀ P P', l2 (P + P') = l2 P + l2 P' := fun P P' =>
    smul_left_injective (ZMod blsR) g2 (by simp only [add_smul, ← h2])
  refine ⟨fun P Q => Multiplicative.ofAdd (l1 P * l2 Q), fun P P' Q => ?_, fun P Q Q' => ?_, ?_⟩
  · simp only [a1, add_mul, ofAdd_add]
  · simp only [a2, mul_add, ofAdd_add]
  · intro h
    have h0 : l1 blsG1 * l2 blsG2 = 0 := h
    rcases mul_eq_zero.1 h0 with h0 | h0
    · exact g1 (by rw [h1 blsG1, h0, zero_smul])
    · exact g2 (by rw [h2 blsG2, h0, zero_smul])

omit [CommMonoid K] [DecidableEq K] in
/-- **C96** (codecs). Compressed points take 48 and 96 bytes, scalars 32, and reading gives back what was written. -/
theorem C96_codec (pair : BlsG1 → BlsG2 → K) : CodecLaws (arkSuite pair stream shake ed) 48 96 32 :=
  ⟨pointCodec_lawful wireFq_good, pointCodec_lawful wireFq2_good, arkFr_lawful, pointCodec_fixed wireFq_good,
    pointCodec_fixed wireFq2_good, arkFr_fixed⟩

/-- **C96** (one encoding). A non-zero point and a scalar have one encoding each. -/
theorem C96_canonical : (∀ l P rest, arkG1.codec.dec l = .ok (P, rest) → P ≠ 0 → l = arkG1.codec.enc P ++ rest) ∧
    (∀ l P rest, arkG2.codec.dec l = .ok (P, rest) → P ≠ 0 → l = arkG2.codec.enc P ++ rest) ∧ arkFr.Canonical :=
  ⟨fun _ _ _ h hP => pointCodec_canonical wireFq_good (fun _ _ _ _ => wireFq_canonical) (by decide +kernel) h hP,
    fun _ _ _ h hP => pointCodec_canonical wireFq2_good (fun _ _ _ _ => wireFq2_canonical) (by decide +kernel) h hP,
    Toy.frCodec_canonical⟩

/-- **C96** (encodings of infinity). Infinity has one encoding for every element of the base field: its `x` is not looked at. -/
theorem C96_infinity (x : BlsFq) (x2 : BlsFq2) (rest : List UInt8) :
    arkG1.codec.dec (wireFq.enc x 1 ++ rest) = .ok (0, rest) ∧ arkG2.codec.dec (wireFq2.enc x2 1 ++ rest) = .ok (0, rest) := by
  simp only [arkG1, arkG2, pointCodec, wireFq_good.dec_enc x 1 rest (by norm_num), wireFq2_good.dec_enc x2 1 rest (by norm_num),
    Res.bind_ok', if_pos, and_self]

theorem C96_not_canonical : ¬ arkG1.codec.Canonical ∧ ¬ arkG2.codec.Canonical := by
  constructor
  · intro h
    have := h _ _ _ (C96_infinity 1 0 []).1
    have h2 := wireFq_good.dec_enc 1 1 [] (by norm_num)
    rw [this, show arkG1.codec.enc 0 = wireFq.enc 0 1 from rfl, wireFq_good.dec_enc 0 1 [] (by norm_num)] at h2
    exact absurd (congrArg Prod.fst (Res.ok.inj h2)) zero_ne_one
  · intro h
    have := h _ _ _ (C96_infinity 0 1 []).2
    have h2 := wireFq2_good.dec_enc 1 1 [] (by norm_num)
    rw [this, show arkG2.codec.enc 0 = wireFq2.enc 0 1 from rfl, wireFq2_good.dec_enc 0 1 [] (by norm_num)] at h2
    exact absurd (congrArg Prod.fst (Res.ok.inj h2)) zero_ne_one

/-- Among all strings of `n` bytes, every residue modulo a divisor `M` of `256 ^ n` occurs equally often. -/
theorem card_residue (n M k x : ℕ) (hM : 256 ^ n = M * k) (hx : x < M) :
    (univ.filter fun s : Fin n → UInt8 => Codec.leVal (List.ofFn s) % M = x).card = k := by
  let f : ℕ → Fin n → UInt8 := fun v j => (Codec.leBytes n v)[j]'(by rw [Codec.length_leBytes]; exact j.2)
  have hf : ∀ v, List.ofFn (f v) = Codec.leBytes n v := fun v => by
    apply List.ext_getElem
    · simp
    · intro i h1 h2
      simp [f]
  have hv : ∀ i < k, x + M * i < 256 ^ n := fun i hi => by
    rw [hM]
    calc x + M * i < M + M * i := by omega
      _ = M * (i + 1) := by ring
      _ ≤ M * k := Nat.mul_le_mul_left _ hi
  have hset : (univ.filter fun s : Fin n → UInt8 => Codec.leVal (List.ofFn s) % M = x) =
      (range k).image fun i => f (x + M * i) := by
    ext s
    simp only [mem_filter, mem_univ, true_and, mem_image, mem_range]
    constructor
    · intro hmod
      have hb := Codec.leVal_lt (List.ofFn s)
      rw [List.length_ofFn, hM] at hb
      refine ⟨Codec.leVal (List.ofFn s) / M, Nat.div_lt_of_lt_mul hb, ?_⟩
      rw [← hmod, Nat.mod_add_div]
      apply List.ofFn_injective
      rw [hf]
      have := Codec.leBytes_leVal (List.ofFn s)
      rwa [List.length_ofFn] at this
    · rintro ⟨i, hi, rfl⟩
      rw [hf, Codec.leVal_leBytes _ _ (hv i hi), Nat.add_mul_mod_self_left, Nat.mod_eq_of_lt hx]
  rw [hset, card_image_of_injOn, card_range]
  intro i hi j hj h
  have h2 := congrArg List.ofFn h
  simp only [hf] at h2
  have h3 := congrArg Codec.leVal h2
  rw [Codec.leVal_leBytes _ _ (hv i (by simpa using hi)), Codec.leVal_leBytes _ _ (hv j (by simpa using hj))] at h3
  exact Nat.eq_of_mul_eq_mul_left (by omega) (Nat.add_left_cancel h3)

/-- **C96** (scalars). Every scalar is the decoding of exactly two of the `2^256` blocks of 32 random bytes. -/
theorem C96_scalar (x : ZMod blsR) : (univ.filter fun s : Fin 32 → UInt8 => arkFromRandom (List.ofFn s) = some x).card = 2 := by
  have hx : x.val < blsR := ZMod.val_lt x
  have hr : blsR < 2 ^ 255 := by decide +kernel
  rw [← card_residue 32 (2 ^ 255) 2 x.val (by norm_num) (hx.trans hr)]
  refine congrArg card (filter_congr fun s _ => ?_)
  unfold arkFromRandom
  constructor
  · intro h
    split at h
    · rename_i hlt
      rw [← Option.some.inj h, ZMod.val_natCast_of_lt hlt]
    · cases h
  · intro h
    rw [h, if_pos hx, ZMod.natCast_zmod_val]

open Classical in
/-- **C96** (hash to field). Among all outputs of `k` blocks of the generator every scalar is the result of `hash_to_field` equally
often; the outputs without a result have the share `(1 - 2r/2^256)^k`, less than `(1/10)^k`. -/
theorem C96_hash (k : ℕ) (p msg : List UInt8) (hp : p.length ≤ 8)
    (stream : (Fin k → Fin 32 → UInt8) → List UInt8 → List UInt8 → ℕ → UInt8)
    (hs : ∀ b, Spec.StartsWith (stream b (padPersona p) msg) b) (x : ZMod blsR) :
    blsR * (univ.filter fun b : Fin k → Fin 32 → UInt8 => (∃ j, arkFromRandom (List.ofFn (b j)) ≠ none) ∧
        (hashToField (arkHash (stream b)) p msg : Res PVSSError _) = .ok x).card + (2 ^ 256 - 2 * blsR) ^ k = (2 ^ 256) ^ k ∧
    10 * (2 ^ 256 - 2 * blsR) < 2 ^ 256 := by
  refine ⟨?_, by decide +kernel⟩
  have h := C92 (ε := PVSSError) k 32 2 arkFromRandom p msg hp (fun b => arkHash (stream b)) (fun _ => rfl) (fun _ => rfl) hs
    C96_scalar x
  rw [show (256 : ℕ) ^ 32 = 2 ^ 256 by norm_num, mul_comm blsR 2] at h
  convert h

/-- **C96** (summary). With the groups and byte formats of BLS12-381, the theorem on deployments (C85) needs nothing but a
non-trivial bilinear map and correct EdDSA. -/
theorem C96 (pair : BlsG1 → BlsG2 → K) (hl : ∀ P P' Q, pair (P + P') Q = pair P Q * pair P' Q)
    (hr : ∀ P Q Q', pair P (Q + Q') = pair P Q * pair P Q') (hu : ∀ P Q, IsUnit (pair P Q)) (hg : pair blsG1 blsG2 ≠ 1)
    (hE : EdLaws ed) (md m : Mode) (cfg : Config BlsG1 BlsG2) (x : Spec.Draws blsR) (hx : Spec.Deployable cfg x) (shs : ℕ → PVSSShare blsR BlsG1 BlsG2)
    (hs : Spec.Dealt (arkSuite pair stream shake ed) md cfg x shs) (p : Spec.Plan blsR)
    (hp : ∀ i ∈ p.leaves, i < cfg.numParticipants) (hw : ∀ i, p.leaves.count i < 2 ^ 64) :
    let S := arkSuite pair stream shake ed
    let secret := (p.leaves.map fun i => x.deal i 0).sum
    ∃ a : Aggregator blsR BlsG1 BlsG2, p.exec S m (Aggregator.new cfg (Spec.table S cfg x)) shs = .ok a ∧
    (∀ i, Spec.weightOf a.tx i = p.leaves.count i) ∧
    ∃ d : ℕ → DecryptedShare BlsG1,
      (∀ i < cfg.numParticipants,
        (DecryptedShare.generate a.tx.core.encs (Spec.party S cfg x i).skSig i : Res PVSSError _) = .ok (d i)) ∧
      ∀ ids, Spec.Selection cfg.numParticipants cfg.degree ids →
        lagrangeG1 m (ids.map fun i => (d i).dec) (ids.map (Spec.point blsR)) cfg.degree = .ok (secret • cfg.srs.g1) ∧
        ∀ epoch, lagrangeGt (r := blsR) m (ids.map fun i => pair (d i).dec epoch) (ids.map fun i => i + 1) cfg.degree =
          .ok (pair (secret • cfg.srs.g1) epoch) := by
  intro S secret
  obtain ⟨a, h1, h2, d, h3, h4⟩ := C85 S (C96_pair stream shake ed pair hl hr hu hg) hE md m cfg x hx shs hs p hp hw
  exact ⟨a, h1, h2, d, fun i hi => (h3 i hi).1, h4⟩

/-! ### examples -/

/-- The encoding of the generator: its `y` is the smaller of the two, so no flag is set. -/
example : arkG1.codec.enc blsG1 = Codec.leBytes 48 blsG1x := by
  classical
  show wireFq.enc _ (if wireFq.lt (-((blsG1y : ℕ) : BlsFq)) ((blsG1y : ℕ) : BlsFq) then 2 else 0) = _
  have hy : blsG1y < blsP := by decide +kernel
  have hx : blsG1x < blsP := by decide +kernel
  rw [if_neg]
  · simp only [wireFq, mul_zero, add_zero]
    rw [ZMod.val_natCast_of_lt hx]
  · have : (-((blsG1y : ℕ) : BlsFq)) = ((blsP - blsG1y : ℕ) : BlsFq) := by
      rw [Nat.cast_sub hy.le, ZMod.natCast_self, zero_sub]
    simp only [wireFq]
    rw [this, ZMod.val_natCast_of_lt hy, ZMod.val_natCast_of_lt (Nat.sub_lt (by decide) (by decide))]
    decide +kernel

/-- Four parties, threshold 1, the generators of BLS12-381. -/
def Toy.blsCfg : Config BlsG1 BlsG2 := ⟨⟨blsG1, blsG2, (5 : ZMod blsR) • blsG2⟩, 1, 4⟩

def Toy.blsDraws : Spec.Draws blsR := ⟨fun i _ => i + 1, fun i => Toy.pad32 [UInt8.ofNat i], fun i k => i + k + 1⟩

/-- Non-vacuity of C96: at the real groups all hypotheses hold together, with four parties and a merge. -/
example : ∃ (pair : BlsG1 → BlsG2 → Multiplicative (ZMod blsR)) (shs : ℕ → PVSSShare blsR BlsG1 BlsG2)
    (a : Aggregator blsR BlsG1 BlsG2) (d1 d3 : DecryptedShare BlsG1),
    let S := arkSuite pair (fun _ _ _ => 7) Toy.pad32 Toy.ed
    (Spec.Plan.merge (.share (.share .fresh (fun _ => 1) 0) (fun _ => 2) 1) (fun _ => 3) (.share .fresh (fun _ => 4) 3)).exec S
      .checked (Aggregator.new Toy.blsCfg (Spec.table S Toy.blsCfg Toy.blsDraws)) shs = .ok a ∧
    (DecryptedShare.generate a.tx.core.encs (2 : ZMod blsR) 1 : Res PVSSError _) = .ok d1 ∧
    (DecryptedShare.generate a.tx.core.encs (4 : ZMod blsR) 3 : Res PVSSError _) = .ok d3 ∧
    lagrangeG1 .checked [d1.dec, d3.dec] [Spec.point blsR 1, Spec.point blsR 3] 1 = .ok ((7 : ZMod blsR) • blsG1) ∧
    (7 : ZMod blsR) • blsG1 ≠ 0 := by
  obtain ⟨pair, hl, hr, hg⟩ := C96_pair_exists
  have hdep : Spec.Deployable Toy.blsCfg Toy.blsDraws := by
    have hne : ∀ k, 0 < k → k < blsR → ((k : ℕ) : ZMod blsR) ≠ 0 := fun k h1 h2 h => by
      rw [ZMod.natCast_eq_zero_iff] at h
      exact absurd (Nat.le_of_dvd h1 h) (by omega)
    have hr4 : 4 < blsR := by decide
    refine ⟨⟨by decide, by decide, by decide, fun i hi => ⟨0, by decide, ?_⟩⟩, fun i hi => ?_⟩
    · have := hne (i + 1) (by omega) (by have : i < 4 := hi; omega)
      simpa [Toy.blsDraws] using this
    · have := hne (i + 1) (by omega) (by have : i < 4 := hi; omega)
      simpa [Toy.blsDraws] using this
  have hH : HashTotal (arkHash fun _ _ _ => 7) := by
    intro p msg
    refine ⟨0, ?_⟩
    have : block (fun _ => (7 : UInt8)) 32 0 = List.replicate 32 7 := by decide
    simp only [arkHash]
    rw [this]
    decide +kernel
  obtain ⟨shs, hs⟩ := C85_share (arkSuite pair (fun _ _ _ => 7) Toy.pad32 Toy.ed) hH Toy.edLaws .checked Toy.blsCfg Toy.blsDraws hdep.toDealable
  obtain ⟨a, ha, -, d, hd, hrec⟩ := C96 (fun _ _ _ => 7) Toy.pad32 Toy.ed pair hl hr (fun _ _ => Group.isUnit _) hg Toy.edLaws .checked .checked Toy.blsCfg
    Toy.blsDraws hdep shs hs (.merge (.share (.share .fresh (fun _ => 1) 0) (fun _ => 2) 1) (fun _ => 3) (.share .fresh (fun _ => 4) 3))
    (by simp [Spec.Plan.leaves, Toy.blsCfg])
    (fun i => lt_of_le_of_lt List.count_le_length (by simp [Spec.Plan.leaves]))
  refine ⟨pair, shs, a, d 1, d 3, ha, ?_, ?_, ?_, ?_⟩
  · have := hd 1 (by decide)
    rwa [show (Spec.party (arkSuite pair (fun _ _ _ => 7) Toy.pad32 Toy.ed) Toy.blsCfg Toy.blsDraws 1).skSig = 2 by
      show ((1 : ℕ) : ZMod blsR) + 1 = 2; norm_num] at this
  · have := hd 3 (by decide)
    rwa [show (Spec.party (arkSuite pair (fun _ _ _ => 7) Toy.pad32 Toy.ed) Toy.blsCfg Toy.blsDraws 3).skSig = 4 by
      show ((3 : ℕ) : ZMod blsR) + 1 = 4; norm_num] at this
  · have := (hrec [1, 3] ⟨by decide, by decide, by decide, by decide⟩).1
    simp only [Spec.Plan.leaves, Toy.blsDraws] at this
    norm_num at this
    exact this
  · rw [Ne, smul_eq_zero, not_or]
    exact ⟨by decide, blsG1_ne_zero⟩

end Verif
