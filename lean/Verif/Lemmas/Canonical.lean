import Verif.Lemmas.Codec

/-! Canonicity of codecs: whatever decodes is the encoding of what it decodes to. -/

namespace Verif.Codec

variable {α β V : Type}

/-- Decoding `l` to `x` with rest `rest` means `l` is the encoding of `x` followed by `rest`. -/
def Canonical (a : Codec α) : Prop := ∀ l x rest, a.dec l = .ok (x, rest) → l = a.enc x ++ rest

theorem u64_canonical : u64.Canonical := by
  intro l x rest h
  simp only [u64] at h ⊢
  split at h
  · cases h
  · rename_i hl
    obtain ⟨rfl, rfl⟩ := Prod.mk.inj (Res.ok.inj h)
    have h8 : (l.take 8).length = 8 := by simp; omega
    have := leBytes_leVal (l.take 8)
    rw [h8] at this
    rw [this, List.take_append_drop]

theorem u64_dec_lt {l : List UInt8} {x : ℕ} {rest : List UInt8} (h : u64.dec l = .ok (x, rest)) : x < 2 ^ 64 := by
  simp only [u64] at h
  split at h
  · cases h
  · obtain ⟨rfl, rfl⟩ := Prod.mk.inj (Res.ok.inj h)
    have h1 := leVal_lt (l.take 8)
    have h2 : (l.take 8).length ≤ 8 := by simp
    refine lt_of_lt_of_le h1 ?_
    calc 256 ^ (l.take 8).length ≤ 256 ^ 8 := Nat.pow_le_pow_right (by omega) h2
      _ = 2 ^ 64 := by omega

theorem weight_canonical : weight.Canonical := by
  intro l x rest h
  have h2 : u64.dec l = .ok (leVal (l.take 8), rest) := by
    simp only [weight, u64] at h ⊢
    split at h
    · cases h
    · obtain ⟨rfl, rfl⟩ := Prod.mk.inj (Res.ok.inj h)
      rename_i h8
      rw [if_neg h8]
  have h1 := u64_canonical l _ rest h2
  have h3 := u64_dec_lt h2
  simp only [weight] at h ⊢
  split at h
  · cases h
  · obtain ⟨rfl, -⟩ := Prod.mk.inj (Res.ok.inj h)
    rw [UInt64.toNat_ofNat_of_lt' (by simpa [UInt64.size] using h3)]
    simpa [u64] using h1

theorem prod_canonical {a : Codec α} {b : Codec β} (ha : a.Canonical) (hb : b.Canonical) : (prod a b).Canonical := by
  rintro l ⟨x, y⟩ rest h
  simp only [prod, Res.bind_eq_ok] at h
  obtain ⟨⟨x', l'⟩, h1, ⟨y', l''⟩, h2, h3⟩ := h
  obtain ⟨h4, rfl⟩ := Prod.mk.inj (Res.ok.inj h3)
  obtain ⟨rfl, rfl⟩ := Prod.mk.inj h4
  simp only at h2
  rw [ha _ _ _ h1, hb _ _ _ h2]
  simp [prod]

theorem phantom_canonical : phantom.Canonical := by
  intro l x rest h
  obtain ⟨rfl, rfl⟩ := Prod.mk.inj (Res.ok.inj h)
  rfl

theorem iso_canonical {a : Codec α} {mk : α → β} {un : β → α} (ha : a.Canonical) (hu : ∀ x, un (mk x) = x) :
    (iso a mk un).Canonical := by
  intro l x rest h
  simp only [iso, Res.bind_eq_ok] at h
  obtain ⟨⟨x', l'⟩, h1, h3⟩ := h
  obtain ⟨rfl, rfl⟩ := Prod.mk.inj (Res.ok.inj h3)
  simp only [iso, hu]
  exact ha _ _ _ h1

theorem decN_canonical {a : Codec α} (ha : a.Canonical) (n : ℕ) : ∀ (l : List UInt8) (xs : List α) (rest : List UInt8),
    decN a n l = .ok (xs, rest) → xs.length = n ∧ l = (xs.map a.enc).flatten ++ rest := by
  induction n with
  | zero =>
    intro l xs rest h
    obtain ⟨rfl, rfl⟩ := Prod.mk.inj (Res.ok.inj h)
    simp
  | succ n ih =>
    intro l xs rest h
    simp only [decN, Res.bind_eq_ok] at h
    obtain ⟨⟨x', l'⟩, h1, ⟨y', l''⟩, h2, h3⟩ := h
    obtain ⟨rfl, rfl⟩ := Prod.mk.inj (Res.ok.inj h3)
    obtain ⟨h4, h5⟩ := ih _ _ _ h2
    simp only at h5
    refine ⟨by simp [h4], ?_⟩
    rw [ha _ _ _ h1, h5]
    simp

theorem vec_canonical {a : Codec α} (ha : a.Canonical) : (vec a).Canonical := by
  intro l xs rest h
  simp only [vec, Res.bind_eq_ok] at h
  obtain ⟨⟨n, l'⟩, h1, h2⟩ := h
  obtain ⟨h3, h4⟩ := decN_canonical ha _ _ _ _ h2
  simp only at h3 h4
  rw [u64_canonical _ _ _ h1, h4]
  simp [vec, h3]

theorem readBytes_eq_ok {n : ℕ} {l rest : List UInt8} {b : Bytes n} (h : readBytes n l = .ok (b, rest)) :
    l = b.1 ++ rest := by
  unfold readBytes at h
  split at h
  · obtain ⟨rfl, rfl⟩ := Prod.mk.inj (Res.ok.inj h)
    simp
  · cases h

theorem publicKey_canonical : PublicKey.codec.Canonical := by
  intro l x rest h
  simp only [PublicKey.codec, Res.bind_eq_ok] at h
  obtain ⟨⟨b, l'⟩, h1, h3⟩ := h
  obtain ⟨rfl, rfl⟩ := Prod.mk.inj (Res.ok.inj h3)
  simp only [PublicKey.codec, flatten_u8]
  exact readBytes_eq_ok h1

theorem signature_canonical : Signature.codec.Canonical := by
  intro l x rest h
  simp only [Signature.codec, Res.bind_eq_ok] at h
  obtain ⟨⟨b, l'⟩, h1, h3⟩ := h
  obtain ⟨rfl, rfl⟩ := Prod.mk.inj (Res.ok.inj h3)
  simp only [Signature.codec, flatten_u8]
  have : b.1.take 32 ++ (b.1.take 64).drop 32 = b.1 := by
    rw [List.take_of_length_le (l := b.1) (i := 64) (by rw [b.2]), List.take_append_drop]
  rw [this]
  exact readBytes_eq_ok h1

end Verif.Codec

namespace Verif
open Codec

set_option linter.unusedSectionVars false

variable {r : ℕ} [Fact r.Prime] {G1 G2 K : Type}
  [AddCommGroup G1] [DecidableEq G1] [AddCommGroup G2] [DecidableEq G2]
  {S : Suite r G1 G2 K}

theorem signedProof_canonical (h2 : S.c2.codec.Canonical) (hf : S.frC.Canonical) : (SignedProof.codec S).Canonical :=
  iso_canonical (prod_canonical (iso_canonical (prod_canonical (prod_canonical h2 (prod_canonical hf hf)) h2)
    fun _ => rfl) signature_canonical) fun _ => rfl

theorem core_canonical (h1 : S.c1.codec.Canonical) (h2 : S.c2.codec.Canonical) : (PVSSCore.codec S).Canonical :=
  iso_canonical (prod_canonical (vec_canonical h1) (vec_canonical h2)) fun _ => rfl

theorem pvssShare_canonical (h1 : S.c1.codec.Canonical) (h2 : S.c2.codec.Canonical) (hf : S.frC.Canonical) :
    (PVSSShare.codec S).Canonical :=
  iso_canonical (prod_canonical u64_canonical (prod_canonical (core_canonical h1 h2) (signedProof_canonical h2 hf)))
    fun _ => rfl

theorem config_canonical (h1 : S.c1.codec.Canonical) (h2 : S.c2.codec.Canonical) : (Config.codec S).Canonical :=
  iso_canonical (prod_canonical (iso_canonical (prod_canonical h1 (prod_canonical h2 h2)) fun _ => rfl)
    (prod_canonical u64_canonical u64_canonical)) fun _ => rfl

theorem participant_canonical (h1 : S.c1.codec.Canonical) : (Participant.codec S).Canonical :=
  iso_canonical (prod_canonical phantom_canonical (prod_canonical u64_canonical (prod_canonical h1 publicKey_canonical)))
    fun _ => rfl

end Verif

/-! ### Canonicity for some values only

On BLS12-381 the point at infinity has many encodings, so a predicate on the decoded value says for which values the
encoding is unique. -/

namespace Verif.Codec

variable {α β V : Type}

/-- Every byte string that decodes to a value with property `p` is the encoding of that value. -/
def CanonicalOn (a : Codec α) (p : α → Prop) : Prop :=
  ∀ l x rest, a.dec l = .ok (x, rest) → p x → l = a.enc x ++ rest

theorem Canonical.on {a : Codec α} (ha : a.Canonical) (p : α → Prop) : a.CanonicalOn p :=
  fun l x rest h _ => ha l x rest h

theorem CanonicalOn.all {a : Codec α} {p : α → Prop} (ha : a.CanonicalOn p) (hp : ∀ x, p x) : a.Canonical :=
  fun l x rest h => ha l x rest h (hp x)

theorem CanonicalOn.mono {a : Codec α} {p q : α → Prop} (ha : a.CanonicalOn p) (hp : ∀ x, q x → p x) : a.CanonicalOn q :=
  fun l x rest h hq => ha l x rest h (hp x hq)

theorem prod_canonicalOn {a : Codec α} {b : Codec β} {p : α → Prop} {q : β → Prop} (ha : a.CanonicalOn p)
    (hb : b.CanonicalOn q) : (prod a b).CanonicalOn fun x => p x.1 ∧ q x.2 := by
  rintro l ⟨x, y⟩ rest h ⟨hp, hq⟩
  simp only [prod, Res.bind_eq_ok] at h
  obtain ⟨⟨x', l'⟩, h1, ⟨y', l''⟩, h2, h3⟩ := h
  obtain ⟨h4, rfl⟩ := Prod.mk.inj (Res.ok.inj h3)
  obtain ⟨rfl, rfl⟩ := Prod.mk.inj h4
  simp only at h2
  rw [ha _ _ _ h1 hp, hb _ _ _ h2 hq]
  simp [prod]

theorem iso_canonicalOn {a : Codec α} {mk : α → β} {un : β → α} {p : α → Prop} (ha : a.CanonicalOn p)
    (hu : ∀ x, un (mk x) = x) : (iso a mk un).CanonicalOn fun x => p (un x) := by
  intro l x rest h hp
  simp only [iso, Res.bind_eq_ok] at h
  obtain ⟨⟨x', l'⟩, h1, h3⟩ := h
  obtain ⟨rfl, rfl⟩ := Prod.mk.inj (Res.ok.inj h3)
  simp only [hu] at hp
  simp only [iso, hu]
  exact ha _ _ _ h1 hp

theorem decN_length {a : Codec α} (n : ℕ) : ∀ (l : List UInt8) (xs : List α) (rest : List UInt8),
    decN a n l = .ok (xs, rest) → xs.length = n := by
  induction n with
  | zero =>
    intro l xs rest h
    obtain ⟨rfl, rfl⟩ := Prod.mk.inj (Res.ok.inj h)
    rfl
  | succ n ih =>
    intro l xs rest h
    simp only [decN, Res.bind_eq_ok] at h
    obtain ⟨⟨x', l'⟩, h1, ⟨y', l''⟩, h2, h3⟩ := h
    obtain ⟨rfl, rfl⟩ := Prod.mk.inj (Res.ok.inj h3)
    simpa using ih _ _ _ h2

theorem decN_canonicalOn {a : Codec α} {p : α → Prop} (ha : a.CanonicalOn p) (n : ℕ) :
    ∀ (l : List UInt8) (xs : List α) (rest : List UInt8), decN a n l = .ok (xs, rest) → (∀ x ∈ xs, p x) →
      l = (xs.map a.enc).flatten ++ rest := by
  induction n with
  | zero =>
    intro l xs rest h _
    obtain ⟨rfl, rfl⟩ := Prod.mk.inj (Res.ok.inj h)
    simp
  | succ n ih =>
    intro l xs rest h hp
    simp only [decN, Res.bind_eq_ok] at h
    obtain ⟨⟨x', l'⟩, h1, ⟨y', l''⟩, h2, h3⟩ := h
    obtain ⟨rfl, rfl⟩ := Prod.mk.inj (Res.ok.inj h3)
    have h5 := ih _ _ _ h2 fun x hx => hp x (List.mem_cons_of_mem _ hx)
    simp only at h5
    rw [ha _ _ _ h1 (hp x' (List.mem_cons_self ..)), h5]
    simp

theorem vec_canonicalOn {a : Codec α} {p : α → Prop} (ha : a.CanonicalOn p) :
    (vec a).CanonicalOn fun xs => ∀ x ∈ xs, p x := by
  intro l xs rest h hp
  simp only [vec, Res.bind_eq_ok] at h
  obtain ⟨⟨n, l'⟩, h1, h2⟩ := h
  have h3 := decN_length _ _ _ _ h2
  have h4 := decN_canonicalOn ha _ _ _ _ h2 hp
  simp only at h3 h4
  rw [u64_canonical _ _ _ h1, h4]
  simp [vec, h3]

end Verif.Codec

namespace Verif
open Codec

set_option linter.unusedSectionVars false

variable {r : ℕ} [Fact r.Prime] {G1 G2 K : Type}
  [AddCommGroup G1] [DecidableEq G1] [AddCommGroup G2] [DecidableEq G2]
  {S : Suite r G1 G2 K} {p1 : G1 → Prop} {p2 : G2 → Prop}

theorem signedProof_canonicalOn (h2 : S.c2.codec.CanonicalOn p2) (hf : S.frC.Canonical) :
    (SignedProof.codec S).CanonicalOn fun x => p2 x.decompProof.proof.1 ∧ p2 x.decompProof.gs :=
  (iso_canonicalOn (prod_canonicalOn (iso_canonicalOn (prod_canonicalOn (prod_canonicalOn h2
    ((prod_canonical hf hf).on fun _ => True)) h2) fun _ => rfl) (signature_canonical.on fun _ => True)) fun _ => rfl).mono
    fun _ h => ⟨⟨⟨h.1, trivial⟩, h.2⟩, trivial⟩

theorem core_canonicalOn (h1 : S.c1.codec.CanonicalOn p1) (h2 : S.c2.codec.CanonicalOn p2) :
    (PVSSCore.codec S).CanonicalOn fun x => (∀ P ∈ x.encs, p1 P) ∧ ∀ P ∈ x.comms, p2 P :=
  iso_canonicalOn (prod_canonicalOn (vec_canonicalOn h1) (vec_canonicalOn h2)) fun _ => rfl

end Verif
