import Verif.Props.Codec

/-!
# Malformed and truncated messages: C82
-/

namespace Verif
open Codec

set_option linter.unusedSectionVars false

/-! ### decoders that report errors, decoders that halt, decoders that read from the front -/

section
variable {α β V : Type}

/-- The decoder returns a value or an error on every input: it neither panics nor loops. -/
def Spec.Safe (a : Codec α) : Prop := ∀ l, (∃ x, a.dec l = .ok x) ∨ ∃ e, a.dec l = .err e

/-- The decoder never loops. -/
def Spec.DecHalts (a : Codec α) : Prop := ∀ l, a.dec l ≠ .diverge

/-- More input does not change what has been decoded: it is left unread. -/
def Spec.Stable (a : Codec α) : Prop := ∀ l x rest more, a.dec l = .ok (x, rest) → a.dec (l ++ more) = .ok (x, rest ++ more)

theorem safe_bind {ε : Type} {x : Res ε α} {f : α → Res ε β} (hx : (∃ a, x = .ok a) ∨ ∃ e, x = .err e)
    (hf : ∀ a, (∃ b, f a = .ok b) ∨ ∃ e, f a = .err e) : (∃ b, (x >>= f) = .ok b) ∨ ∃ e, (x >>= f) = .err e := by
  rcases hx with ⟨a, rfl⟩ | ⟨e, rfl⟩
  · rw [Res.bind_ok']; exact hf a
  · exact Or.inr ⟨e, rfl⟩

theorem u64_safe : Spec.Safe u64 := by
  intro l
  simp only [u64]
  split
  · exact Or.inr ⟨_, rfl⟩
  · exact Or.inl ⟨_, rfl⟩

theorem prod_safe {a : Codec α} {b : Codec β} (ha : Spec.Safe a) (hb : Spec.Safe b) : Spec.Safe (prod a b) := by
  intro l
  exact safe_bind (ha l) fun x => safe_bind (hb x.2) fun y => Or.inl ⟨_, rfl⟩

theorem iso_safe {a : Codec α} {mk : α → β} {un : β → α} (ha : Spec.Safe a) : Spec.Safe (a.iso mk un) := by
  intro l
  exact safe_bind (ha l) fun x => Or.inl ⟨_, rfl⟩

theorem decN_safe {a : Codec α} (ha : Spec.Safe a) (n : ℕ) (l : List UInt8) :
    (∃ x, decN a n l = .ok x) ∨ ∃ e, decN a n l = .err e := by
  induction n generalizing l with
  | zero => exact Or.inl ⟨_, rfl⟩
  | succ n ih => exact safe_bind (ha l) fun x => safe_bind (ih x.2) fun y => Or.inl ⟨_, rfl⟩

theorem vec_safe {a : Codec α} (ha : Spec.Safe a) : Spec.Safe (vec a) := by
  intro l
  exact safe_bind (u64_safe l) fun x => decN_safe ha _ _

theorem halts_bind {ε : Type} {x : Res ε α} {f : α → Res ε β} (hx : x ≠ .diverge) (hf : ∀ a, f a ≠ .diverge) :
    (x >>= f) ≠ .diverge := by
  cases x with
  | ok a => rw [Res.bind_ok']; exact hf a
  | err e => intro h; cases h
  | panic => intro h; cases h
  | diverge => exact absurd rfl hx

theorem Spec.Safe.halts {a : Codec α} (h : Spec.Safe a) : Spec.DecHalts a := by
  intro l hl
  rcases h l with ⟨x, hx⟩ | ⟨e, hx⟩ <;> rw [hx] at hl <;> cases hl

theorem prod_decHalts {a : Codec α} {b : Codec β} (ha : Spec.DecHalts a) (hb : Spec.DecHalts b) : Spec.DecHalts (prod a b) :=
  fun l => halts_bind (ha l) fun x => halts_bind (hb x.2) fun y => by intro h; cases h

theorem iso_decHalts {a : Codec α} {mk : α → β} {un : β → α} (ha : Spec.DecHalts a) : Spec.DecHalts (a.iso mk un) :=
  fun l => halts_bind (ha l) fun x => by intro h; cases h

theorem decN_decHalts {a : Codec α} (ha : Spec.DecHalts a) (n : ℕ) (l : List UInt8) : decN a n l ≠ .diverge := by
  induction n generalizing l with
  | zero => intro h; cases h
  | succ n ih => exact halts_bind (ha l) fun x => halts_bind (ih x.2) fun y => by intro h; cases h

theorem bmap_decHalts {a : Codec V} (ha : Spec.DecHalts a) : Spec.DecHalts (bmap a) :=
  fun l => halts_bind (u64_safe.halts l) fun x => halts_bind (decN_decHalts (prod_decHalts u64_safe.halts ha) _ _) fun y => by
    intro h; cases h

theorem readBytes_halts (n : ℕ) (l : List UInt8) : readBytes n l ≠ .diverge := by
  unfold readBytes
  split <;> intro h <;> cases h

theorem publicKey_decHalts : Spec.DecHalts PublicKey.codec := fun l => halts_bind (readBytes_halts _ _) fun x => by
  intro h; cases h

theorem signature_decHalts : Spec.DecHalts Signature.codec := fun l => halts_bind (readBytes_halts _ _) fun x => by
  intro h; cases h

theorem u64_stable : Spec.Stable u64 := by
  intro l x rest more h
  simp only [u64] at h ⊢
  split at h
  · cases h
  · rename_i hl
    obtain ⟨rfl, rfl⟩ := Prod.mk.inj (Res.ok.inj h)
    rw [if_neg (by simp; omega), List.take_append_of_le_length (by omega), List.drop_append_of_le_length (by omega)]

theorem weight_stable : Spec.Stable weight := by
  intro l x rest more h
  simp only [weight] at h ⊢
  split at h
  · cases h
  · rename_i hl
    obtain ⟨rfl, rfl⟩ := Prod.mk.inj (Res.ok.inj h)
    rw [if_neg (by simp; omega), List.take_append_of_le_length (by omega), List.drop_append_of_le_length (by omega)]

theorem prod_stable {a : Codec α} {b : Codec β} (ha : Spec.Stable a) (hb : Spec.Stable b) : Spec.Stable (prod a b) := by
  intro l x rest more h
  simp only [prod] at h ⊢
  rw [Res.bind_eq_ok] at h
  obtain ⟨⟨y, l1⟩, h1, h⟩ := h
  simp only at h
  rw [Res.bind_eq_ok] at h
  obtain ⟨⟨z, l2⟩, h2, h⟩ := h
  obtain ⟨rfl, rfl⟩ := Prod.mk.inj (Res.ok.inj h)
  rw [ha _ _ _ more h1, Res.bind_ok']
  simp only
  rw [hb _ _ _ more h2, Res.bind_ok']

theorem iso_stable {a : Codec α} {mk : α → β} {un : β → α} (ha : Spec.Stable a) : Spec.Stable (a.iso mk un) := by
  intro l x rest more h
  simp only [iso] at h ⊢
  rw [Res.bind_eq_ok] at h
  obtain ⟨⟨y, l1⟩, h1, h⟩ := h
  obtain ⟨rfl, rfl⟩ := Prod.mk.inj (Res.ok.inj h)
  rw [ha _ _ _ more h1, Res.bind_ok']

theorem decN_stable {a : Codec α} (ha : Spec.Stable a) (n : ℕ) (l : List UInt8) (xs : List α) (rest more : List UInt8)
    (h : decN a n l = .ok (xs, rest)) : decN a n (l ++ more) = .ok (xs, rest ++ more) := by
  induction n generalizing l xs rest with
  | zero =>
    obtain ⟨rfl, rfl⟩ := Prod.mk.inj (Res.ok.inj h)
    rfl
  | succ n ih =>
    simp only [decN] at h ⊢
    rw [Res.bind_eq_ok] at h
    obtain ⟨⟨y, l1⟩, h1, h⟩ := h
    simp only at h
    rw [Res.bind_eq_ok] at h
    obtain ⟨⟨z, l2⟩, h2, h⟩ := h
    obtain ⟨rfl, rfl⟩ := Prod.mk.inj (Res.ok.inj h)
    rw [ha _ _ _ more h1, Res.bind_ok']
    simp only
    rw [ih _ _ _ h2, Res.bind_ok']

theorem vec_stable {a : Codec α} (ha : Spec.Stable a) : Spec.Stable (vec a) := by
  intro l x rest more h
  simp only [vec] at h ⊢
  rw [Res.bind_eq_ok] at h
  obtain ⟨⟨y, l1⟩, h1, h⟩ := h
  rw [u64_stable _ _ _ more h1, Res.bind_ok']
  exact decN_stable ha _ _ _ _ _ h

theorem bmap_stable {a : Codec V} (ha : Spec.Stable a) : Spec.Stable (bmap a) := by
  intro l x rest more h
  simp only [bmap] at h ⊢
  rw [Res.bind_eq_ok] at h
  obtain ⟨⟨y, l1⟩, h1, h⟩ := h
  simp only at h
  rw [Res.bind_eq_ok] at h
  obtain ⟨⟨z, l2⟩, h2, h⟩ := h
  obtain ⟨rfl, rfl⟩ := Prod.mk.inj (Res.ok.inj h)
  rw [u64_stable _ _ _ more h1, Res.bind_ok']
  simp only
  rw [decN_stable (prod_stable u64_stable ha) _ _ _ _ _ h2, Res.bind_ok']

theorem readBytes_stable {n : ℕ} {l : List UInt8} {x : Bytes n} {rest : List UInt8} (more : List UInt8)
    (h : readBytes n l = .ok (x, rest)) : readBytes n (l ++ more) = .ok (x, rest ++ more) := by
  unfold readBytes at h ⊢
  split at h
  · rename_i hl
    obtain ⟨rfl, rfl⟩ := Prod.mk.inj (Res.ok.inj h)
    rw [dif_pos (by simp; omega)]
    congr 2
    · apply Subtype.ext
      exact List.take_append_of_le_length hl
    · exact List.drop_append_of_le_length hl
  · cases h

theorem publicKey_stable : Spec.Stable PublicKey.codec := by
  intro l x rest more h
  simp only [PublicKey.codec] at h ⊢
  rw [Res.bind_eq_ok] at h
  obtain ⟨⟨y, l1⟩, h1, h⟩ := h
  obtain ⟨rfl, rfl⟩ := Prod.mk.inj (Res.ok.inj h)
  rw [readBytes_stable more h1, Res.bind_ok']

theorem signature_stable : Spec.Stable Signature.codec := by
  intro l x rest more h
  simp only [Signature.codec] at h ⊢
  rw [Res.bind_eq_ok] at h
  obtain ⟨⟨y, l1⟩, h1, h⟩ := h
  obtain ⟨rfl, rfl⟩ := Prod.mk.inj (Res.ok.inj h)
  rw [readBytes_stable more h1, Res.bind_ok']

/-- A stable decoder accepts no proper prefix of an encoding. -/
theorem prefix_refused {a : Codec α} {P : α → Prop} (hs : Spec.Stable a) (hl : a.LawfulOn P) {x : α} (hx : P x)
    {l : List UInt8} (hp : l <+: a.enc x) (hne : l ≠ a.enc x) : ∀ y, a.dec l ≠ .ok y := by
  rintro ⟨y, rest⟩ h
  obtain ⟨q, hq⟩ := hp
  have h1 := hs _ _ _ q h
  have h2 := hl x hx []
  rw [List.append_nil, ← hq, h1] at h2
  have h3 := (Prod.mk.inj (Res.ok.inj h2)).2
  rw [List.append_eq_nil_iff] at h3
  rw [h3.2, List.append_nil] at hq
  exact hne hq

end

variable {r : ℕ} [Fact r.Prime] {G1 G2 K : Type}
  [AddCommGroup G1] [DecidableEq G1] [AddCommGroup G2] [DecidableEq G2]
  (S : Suite r G1 G2 K) (n1 n2 nf : ℕ)

/-- What is assumed of the decoders of curve points and scalars: errors instead of panics, reading from the front only. -/
structure Spec.PointDecoders (S : Suite r G1 G2 K) : Prop where
  safe1 : Spec.Safe S.c1.codec
  safe2 : Spec.Safe S.c2.codec
  safeF : Spec.Safe S.frC
  stable1 : Spec.Stable S.c1.codec
  stable2 : Spec.Stable S.c2.codec
  stableF : Spec.Stable S.frC

/-- The claim of C82: every byte string is decoded or reported as an error. -/
def C82_claim : Prop :=
  Spec.Safe (SRS.codec S) ∧ Spec.Safe (Config.codec S) ∧ Spec.Safe (PVSSCore.codec S) ∧ Spec.Safe (DecompProof.codec S) ∧
  Spec.Safe (Participant.codec S) ∧ Spec.Safe (SignedProof.codec S) ∧ Spec.Safe (PVSSShare.codec S) ∧ Spec.Safe (AggShare.codec S)

theorem core_safe (h : Spec.PointDecoders S) : Spec.Safe (PVSSCore.codec S) :=
  iso_safe (prod_safe (vec_safe h.safe1) (vec_safe h.safe2))

theorem decomp_safe (h : Spec.PointDecoders S) : Spec.Safe (DecompProof.codec S) :=
  iso_safe (prod_safe (prod_safe h.safe2 (prod_safe h.safeF h.safeF)) h.safe2)

theorem signed_halts (h : Spec.PointDecoders S) : Spec.DecHalts (SignedProof.codec S) :=
  iso_decHalts (prod_decHalts (decomp_safe S h).halts signature_decHalts)

theorem weight_safe : Spec.Safe weight := by
  intro l
  simp only [weight]
  split
  · exact Or.inr ⟨_, rfl⟩
  · exact Or.inl ⟨_, rfl⟩

theorem phantom_safe : Spec.Safe phantom := fun _ => Or.inl ⟨_, rfl⟩

theorem phantom_stable : Spec.Stable phantom := by
  intro l x rest more h
  obtain ⟨rfl, rfl⟩ := Prod.mk.inj (Res.ok.inj h)
  rfl

/-- **C82** (proved part): the types without EdDSA fields decode or report an error on every input, and no decoder loops.
Missing for the full claim: `Participant`, `SignedProof`, `PVSSShare` and `AggShare` panic on input that ends inside a key or
signature (`C82_truncated`, `C82_panic`). -/
theorem C82_partial (h : Spec.PointDecoders S) :
    (Spec.Safe (SRS.codec S) ∧ Spec.Safe (Config.codec S) ∧ Spec.Safe (PVSSCore.codec S) ∧ Spec.Safe (DecompProof.codec S)) ∧
    (Spec.DecHalts (Participant.codec S) ∧ Spec.DecHalts (SignedProof.codec S) ∧ Spec.DecHalts (PVSSShare.codec S) ∧
      Spec.DecHalts (AggShare.codec S)) := by
  have hsrs : Spec.Safe (SRS.codec S) := iso_safe (prod_safe h.safe1 (prod_safe h.safe2 h.safe2))
  refine ⟨⟨hsrs, iso_safe (prod_safe hsrs (prod_safe u64_safe u64_safe)), core_safe S h, decomp_safe S h⟩, ?_, signed_halts S h, ?_, ?_⟩
  · exact iso_decHalts (prod_decHalts phantom_safe.halts (prod_decHalts u64_safe.halts (prod_decHalts h.safe1.halts publicKey_decHalts)))
  · exact iso_decHalts (prod_decHalts u64_safe.halts (prod_decHalts (core_safe S h).halts (signed_halts S h)))
  · exact iso_decHalts (prod_decHalts u64_safe.halts (prod_decHalts u64_safe.halts (prod_decHalts (core_safe S h).halts
      (bmap_decHalts (prod_decHalts (signed_halts S h) weight_safe.halts)))))

/-- **C82** (exactly when decoding panics). A participant: the id and the encryption key decode and fewer than 32 bytes follow. A
signed proof: the proof decodes and fewer than 64 bytes follow. A share: id, core and proof decode and fewer than 64 bytes
follow. -/
theorem C82_panic (h : Spec.PointDecoders S) (l : List UInt8) :
    ((Participant.codec S).dec l = .panic ↔
      ∃ x rest, (prod u64 S.c1.codec).dec l = .ok (x, rest) ∧ rest.length < 32) ∧
    ((SignedProof.codec S).dec l = .panic ↔ ∃ d rest, (DecompProof.codec S).dec l = .ok (d, rest) ∧ rest.length < 64) ∧
    ((PVSSShare.codec S).dec l = .panic ↔
      ∃ x rest, (prod u64 (prod (PVSSCore.codec S) (DecompProof.codec S))).dec l = .ok (x, rest) ∧ rest.length < 64) := by
  have hpk : ∀ l, PublicKey.codec.dec l = .panic ↔ l.length < 32 := by
    intro l
    by_cases hl : l.length < 32
    · simp [hl, ((C54_short l).1 hl).2]
    · obtain ⟨-, k, hk, -⟩ := (C54_long l).1 (by omega)
      simp [hl, hk]
  have hsig : ∀ l, Signature.codec.dec l = .panic ↔ l.length < 64 := by
    intro l
    by_cases hl : l.length < 64
    · simp [hl, ((C54_short l).2 hl).2]
    · obtain ⟨-, k, hk, -⟩ := (C54_long l).2 (by omega)
      simp [hl, hk]
  have hbp : ∀ {α β ε : Type} (x : Res ε α) (f : α → Res ε β),
      (x >>= f) = .panic ↔ x = .panic ∨ ∃ a, x = .ok a ∧ f a = .panic := by
    intro α β ε x f
    cases x with
    | ok a => rw [Res.bind_ok']; simp
    | err e => constructor <;> intro h <;> simp at h
    | panic => simp
    | diverge => constructor <;> intro h <;> simp at h
  have hnp : ∀ {α : Type} {a : Codec α}, Spec.Safe a → ∀ l, a.dec l ≠ .panic := by
    intro α a ha l hl
    rcases ha l with ⟨x, hx⟩ | ⟨e, hx⟩ <;> rw [hx] at hl <;> cases hl
  have hprod : ∀ {α β : Type} (a : Codec α) (b : Codec β) (l : List UInt8), Spec.Safe a →
      ((prod a b).dec l = .panic ↔ ∃ x rest, a.dec l = .ok (x, rest) ∧ b.dec rest = .panic) := by
    intro α β a b l ha
    simp only [prod]
    rw [hbp]
    constructor
    · rintro (h1 | ⟨⟨x, rest⟩, h1, h2⟩)
      · exact absurd h1 (hnp ha l)
      · refine ⟨x, rest, h1, ?_⟩
        simp only at h2
        rw [hbp] at h2
        rcases h2 with h2 | ⟨y, -, h3⟩
        · exact h2
        · cases h3
    · rintro ⟨x, rest, h1, h2⟩
      refine Or.inr ⟨(x, rest), h1, ?_⟩
      simp only
      rw [hbp]
      exact Or.inl h2
  have hiso : ∀ {α β : Type} (a : Codec α) (mk : α → β) (un : β → α) (l : List UInt8),
      ((a.iso mk un).dec l = .panic ↔ a.dec l = .panic) := by
    intro α β a mk un l
    simp only [iso]
    rw [hbp]
    constructor
    · rintro (h1 | ⟨y, -, h3⟩)
      · exact h1
      · cases h3
    · exact Or.inl
  have hpok : ∀ {α β : Type} (a : Codec α) (b : Codec β) (l : List UInt8) (x : α × β) (rest : List UInt8),
      (prod a b).dec l = .ok (x, rest) ↔ ∃ l1, a.dec l = .ok (x.1, l1) ∧ b.dec l1 = .ok (x.2, rest) := by
    intro α β a b l x rest
    simp only [prod]
    rw [Res.bind_eq_ok]
    constructor
    · rintro ⟨⟨y, l1⟩, h1, h2⟩
      simp only at h2
      rw [Res.bind_eq_ok] at h2
      obtain ⟨⟨z, l2⟩, h2, h3⟩ := h2
      obtain ⟨rfl, rfl⟩ := Prod.mk.inj (Res.ok.inj h3)
      exact ⟨l1, h1, h2⟩
    · rintro ⟨l1, h1, h2⟩
      refine ⟨_, h1, ?_⟩
      simp only
      rw [h2, Res.bind_ok']
  have hsp : ∀ l, (SignedProof.codec S).dec l = .panic ↔ ∃ d rest, (DecompProof.codec S).dec l = .ok (d, rest) ∧ rest.length < 64 := by
    intro l
    unfold SignedProof.codec
    rw [hiso, hprod _ _ _ (decomp_safe S h)]
    simp only [hsig]
  refine ⟨?_, hsp l, ?_⟩
  · unfold Participant.codec
    rw [hiso, hprod _ _ _ phantom_safe]
    simp only [hprod _ _ _ u64_safe, hprod _ _ _ h.safe1, hpk]
    constructor
    · rintro ⟨x, rest, h1, y, rest1, h2, z, rest2, h3, h4⟩
      obtain ⟨-, rfl⟩ := Prod.mk.inj (Res.ok.inj h1)
      exact ⟨(y, z), rest2, (hpok _ _ _ _ _).2 ⟨_, h2, h3⟩, h4⟩
    · rintro ⟨⟨y, z⟩, rest2, h1, h4⟩
      obtain ⟨rest1, h2, h3⟩ := (hpok _ _ _ _ _).1 h1
      exact ⟨(), l, rfl, y, rest1, h2, z, rest2, h3, h4⟩
  · unfold PVSSShare.codec
    rw [hiso, hprod _ _ _ u64_safe]
    simp only [hprod _ _ _ (core_safe S h), hsp]
    constructor
    · rintro ⟨x, rest, h1, y, rest1, h2, z, rest2, h3, h4⟩
      exact ⟨(x, y, z), rest2, (hpok _ _ _ _ _).2 ⟨_, h1, (hpok _ _ _ _ _).2 ⟨_, h2, h3⟩⟩, h4⟩
    · rintro ⟨⟨x, y, z⟩, rest2, h1, h4⟩
      obtain ⟨rest, h2, h3⟩ := (hpok _ _ _ _ _).1 h1
      obtain ⟨rest1, h5, h6⟩ := (hpok _ _ _ _ _).1 h3
      exact ⟨x, rest, h2, y, rest1, h5, z, rest2, h6, h4⟩

/-! ### truncated messages -/

theorem signature_enc_length (s : Signature) : (Signature.codec.enc s).length = 64 := (C53.2.2.2 s).2

theorem publicKey_enc_length (k : PublicKey) : (PublicKey.codec.enc k).length = 32 := (C53.2.1 k).2

/-- Removing the last `j` bytes of a concatenation removes them from the last part. -/
theorem take_tail {l1 l2 : List UInt8} {n j : ℕ} (h2 : l2.length = n) (hj : j ≤ n) :
    (l1 ++ l2).take ((l1 ++ l2).length - j) = l1 ++ l2.take (n - j) := by
  rw [List.length_append, h2, show l1.length + n - j = l1.length + (n - j) by omega, List.take_length_add_append]

theorem decN_fail {α : Type} {a : Codec α} {P : α → Prop} (ha : a.LawfulOn P) (xs : List α) (hx : ∀ x ∈ xs, P x) (l : List UInt8)
    (n : ℕ) :
    (a.dec l = .panic → decN a (xs.length + (n + 1)) ((xs.map a.enc).flatten ++ l) = .panic) ∧
    (∀ e, a.dec l = .err e → decN a (xs.length + (n + 1)) ((xs.map a.enc).flatten ++ l) = .err e) := by
  induction xs with
  | nil =>
    rw [List.length_nil, Nat.zero_add, decN]
    refine ⟨fun hl => by simp [hl], fun e hl => ?_⟩
    simp only [List.map_nil, List.flatten_nil, List.nil_append]
    rw [hl]
    rfl
  | cons x xs ih =>
    rw [List.length_cons, show xs.length + 1 + (n + 1) = (xs.length + (n + 1)) + 1 by omega, decN, List.map_cons,
      List.flatten_cons, List.append_assoc, ha x (hx x (by simp)), Res.bind_ok']
    simp only
    have ih := ih fun y hy => hx y (by simp [hy])
    refine ⟨fun hl => ?_, fun e hl => ?_⟩
    · rw [ih.1 hl]; rfl
    · rw [ih.2 e hl]; rfl

/-- **C82** (truncation). A share that lacks between one and 64 of its last bytes makes the receiver panic; so does a
participant that lacks between one and 32 bytes, and a transcript with a contribution that lacks between 9 and 72 bytes (the
last eight bytes are a weight; without these an error is reported). -/
theorem C82_truncated (h : Spec.PointDecoders S) (hC : CodecLaws S n1 n2 nf) :
    (∀ (p : Participant G1) (j : ℕ), p.id < 2 ^ 64 → 1 ≤ j → j ≤ 32 →
      (Participant.codec S).dec (((Participant.codec S).enc p).take (((Participant.codec S).enc p).length - j)) = .panic) ∧
    (∀ (s : PVSSShare r G1 G2) (j : ℕ), s.participantId < 2 ^ 64 → s.core.encs.length < 2 ^ 64 → s.core.comms.length < 2 ^ 64 →
      1 ≤ j → j ≤ 64 →
      (PVSSShare.codec S).dec (((PVSSShare.codec S).enc s).take (((PVSSShare.codec S).enc s).length - j)) = .panic) ∧
    (∀ (a : AggShare r G1 G2) (j : ℕ), a.numParticipants < 2 ^ 64 → a.degree < 2 ^ 64 → a.core.encs.length < 2 ^ 64 →
      a.core.comms.length < 2 ^ 64 → a.contributions.entries.length < 2 ^ 64 → (∀ e ∈ a.contributions.entries, e.1 < 2 ^ 64) →
      a.contributions.entries ≠ [] →
      (9 ≤ j → j ≤ 72 →
        (AggShare.codec S).dec (((AggShare.codec S).enc a).take (((AggShare.codec S).enc a).length - j)) = .panic) ∧
      (1 ≤ j → j ≤ 8 →
        (AggShare.codec S).dec (((AggShare.codec S).enc a).take (((AggShare.codec S).enc a).length - j)) = .err .ioError)) := by
  refine ⟨?_, ?_, ?_⟩
  · intro p j hp h1 h2
    have he : (Participant.codec S).enc p = (prod u64 S.c1.codec).enc (p.id, p.pkSig) ++ PublicKey.codec.enc p.pkEd := by
      show [] ++ (u64.enc p.id ++ (S.c1.codec.enc p.pkSig ++ PublicKey.codec.enc p.pkEd)) = _
      simp [prod]
    rw [he, take_tail (publicKey_enc_length _) h2, ((C82_panic S h _).1)]
    refine ⟨_, _, prod_lawful u64_lawful (hC.c1.on fun _ => True) (p.id, p.pkSig) ⟨hp, trivial⟩ _, ?_⟩
    rw [List.length_take, publicKey_enc_length]
    omega
  · intro s j hi hl1 hl2 h1 h2
    have he : (PVSSShare.codec S).enc s = (prod u64 (prod (PVSSCore.codec S) (DecompProof.codec S))).enc
        (s.participantId, s.core, s.signedProof.decompProof) ++ Signature.codec.enc s.signedProof.signature := by
      show u64.enc s.participantId ++ ((PVSSCore.codec S).enc s.core ++ ((DecompProof.codec S).enc s.signedProof.decompProof ++
        Signature.codec.enc s.signedProof.signature)) = _
      simp [prod]
    rw [he, take_tail (signature_enc_length _) h2, ((C82_panic S h _).2.2)]
    refine ⟨_, _, prod_lawful u64_lawful (prod_lawful (core_lawful hC) ((decompProof_lawful hC).on fun _ => True))
      (s.participantId, s.core, s.signedProof.decompProof) ⟨hi, ⟨hl1, hl2⟩, trivial⟩ _, ?_⟩
    rw [List.length_take, signature_enc_length]
    omega
  · intro a j hn hd hl1 hl2 hl hk hne
    obtain ⟨xs, e, hxs⟩ : ∃ xs e, a.contributions.entries = xs ++ [e] :=
      ⟨_, _, (List.dropLast_append_getLast hne).symm⟩
    obtain ⟨k, sp, w⟩ := e
    set ec := prod u64 (prod (SignedProof.codec S) weight) with hec
    set hdr := prod u64 (prod u64 (PVSSCore.codec S)) with hhdr
    have hecl : ec.LawfulOn fun e => e.1 < 2 ^ 64 :=
      (prod_lawful u64_lawful (prod_lawful ((signedProof_lawful hC).on fun _ => True) (weight_lawful.on fun _ => True))).mono
        fun _ hx => ⟨hx, trivial, trivial⟩
    have hhl : hdr.LawfulOn fun x => x.1 < 2 ^ 64 ∧ x.2.1 < 2 ^ 64 ∧ x.2.2.encs.length < 2 ^ 64 ∧ x.2.2.comms.length < 2 ^ 64 :=
      prod_lawful u64_lawful (prod_lawful u64_lawful (core_lawful hC))
    have he : (AggShare.codec S).enc a = (hdr.enc (a.numParticipants, a.degree, a.core) ++
        (u64.enc (xs.length + 1) ++ ((xs.map ec.enc).flatten ++ (u64.enc k ++ (DecompProof.codec S).enc sp.decompProof)))) ++
        (Signature.codec.enc sp.signature ++ weight.enc w) := by
      have : (AggShare.codec S).enc a = u64.enc a.numParticipants ++ (u64.enc a.degree ++ ((PVSSCore.codec S).enc a.core ++
        (u64.enc a.contributions.entries.length ++ (a.contributions.entries.map ec.enc).flatten))) := rfl
      rw [this, hhdr, hxs, List.map_append, List.flatten_append]
      simp [prod, hec, SignedProof.codec, iso, List.append_assoc]
    have hlen : xs.length + 1 < 2 ^ 64 := by
      rw [hxs] at hl; simpa using hl
    -- decoding reaches the last entry
    have hdec : ∀ l, (AggShare.codec S).dec (hdr.enc (a.numParticipants, a.degree, a.core) ++ (u64.enc (xs.length + 1) ++ l)) =
        (decN ec (xs.length + 1) l >>= fun y => .ok (⟨a.numParticipants, a.degree, a.core, BMap.ofList y.1⟩, y.2)) := by
      intro l
      have hh : hdr.enc (a.numParticipants, a.degree, a.core) =
        u64.enc a.numParticipants ++ (u64.enc a.degree ++ (PVSSCore.codec S).enc a.core) := rfl
      rw [hh, List.append_assoc, List.append_assoc]
      unfold AggShare.codec
      simp only [iso, prod, bmap]
      rw [u64_lawful _ hn, Res.bind_ok']
      simp only
      rw [u64_lawful _ hd, Res.bind_ok']
      simp only
      rw [core_lawful hC _ ⟨hl1, hl2⟩, Res.bind_ok']
      simp only
      rw [u64_lawful _ hlen, Res.bind_ok']
      simp only
      simp only [hec, prod]
      generalize decN _ (xs.length + 1) l = D
      cases D <;> rfl
    have hxl : ∀ x ∈ xs, x.1 < 2 ^ 64 := fun x hx => hk x (by rw [hxs]; simp [hx])
    have hkl : k < 2 ^ 64 := hk (k, sp, w) (by rw [hxs]; simp)
    have hwl : (weight.enc w).length = 8 := by simp [weight]
    have htl : (Signature.codec.enc sp.signature ++ weight.enc w).length = 72 := by
      rw [List.length_append, signature_enc_length, hwl]
    have hrun : ∀ l, ec.dec (u64.enc k ++ ((DecompProof.codec S).enc sp.decompProof ++ l)) =
        (Signature.codec.dec l >>= fun x => weight.dec x.2 >>= fun y => .ok ((k, ⟨sp.decompProof, x.1⟩, y.1), y.2)) := by
      intro l
      simp only [hec, prod, SignedProof.codec, iso]
      rw [u64_lawful _ hkl, Res.bind_ok']
      simp only
      rw [decompProof_lawful hC, Res.bind_ok']
      simp only
      cases hs : Signature.codec.dec l with
      | ok x =>
        simp only [Res.bind_ok']
        cases weight.dec x.2 <;> rfl
      | err e => rfl
      | panic => rfl
      | diverge => rfl
    refine ⟨fun h1 h2 => ?_, fun h1 h2 => ?_⟩
    · rw [he, take_tail htl h2, List.append_assoc, List.append_assoc, List.append_assoc, List.append_assoc, hdec,
        (decN_fail hecl xs hxl _ 0).1]
      · rfl
      · rw [hrun, (C54_short _).2 ?_ |>.2]
        · rfl
        · rw [List.length_take, htl]; omega
    · rw [he, take_tail htl (by omega), List.append_assoc, List.append_assoc, List.append_assoc, List.append_assoc, hdec,
        (decN_fail hecl xs hxl _ 0).2 .ioError]
      · rfl
      · rw [hrun, show 72 - j = (Signature.codec.enc sp.signature).length + (8 - j) by rw [signature_enc_length]; omega,
          List.take_length_add_append, signature_lawful, Res.bind_ok']
        simp only [weight]
        rw [if_pos]
        · rfl
        · simp; omega

/-! ### incomplete messages are never accepted -/

theorem core_stable (h : Spec.PointDecoders S) : Spec.Stable (PVSSCore.codec S) :=
  iso_stable (prod_stable (vec_stable h.stable1) (vec_stable h.stable2))

theorem decomp_stable (h : Spec.PointDecoders S) : Spec.Stable (DecompProof.codec S) :=
  iso_stable (prod_stable (prod_stable h.stable2 (prod_stable h.stableF h.stableF)) h.stable2)

theorem signed_stable (h : Spec.PointDecoders S) : Spec.Stable (SignedProof.codec S) :=
  iso_stable (prod_stable (decomp_stable S h) signature_stable)

theorem srs_stable (h : Spec.PointDecoders S) : Spec.Stable (SRS.codec S) :=
  iso_stable (prod_stable h.stable1 (prod_stable h.stable2 h.stable2))

/-- **C82** (incomplete messages). No proper prefix of the encoding of a value is accepted, for any of the types. -/
theorem C82_prefix (h : Spec.PointDecoders S) (hC : CodecLaws S n1 n2 nf) (l : List UInt8) :
    (∀ x : SRS G1 G2, l <+: (SRS.codec S).enc x → l ≠ (SRS.codec S).enc x → ∀ y, (SRS.codec S).dec l ≠ .ok y) ∧
    (∀ x : Config G1 G2, x.degree < 2 ^ 64 → x.numParticipants < 2 ^ 64 →
      l <+: (Config.codec S).enc x → l ≠ (Config.codec S).enc x → ∀ y, (Config.codec S).dec l ≠ .ok y) ∧
    (∀ x : Participant G1, x.id < 2 ^ 64 →
      l <+: (Participant.codec S).enc x → l ≠ (Participant.codec S).enc x → ∀ y, (Participant.codec S).dec l ≠ .ok y) ∧
    (∀ x : PVSSCore G1 G2, x.encs.length < 2 ^ 64 → x.comms.length < 2 ^ 64 →
      l <+: (PVSSCore.codec S).enc x → l ≠ (PVSSCore.codec S).enc x → ∀ y, (PVSSCore.codec S).dec l ≠ .ok y) ∧
    (∀ x : SignedProof r G2, l <+: (SignedProof.codec S).enc x → l ≠ (SignedProof.codec S).enc x →
      ∀ y, (SignedProof.codec S).dec l ≠ .ok y) ∧
    (∀ x : PVSSShare r G1 G2, x.participantId < 2 ^ 64 → x.core.encs.length < 2 ^ 64 → x.core.comms.length < 2 ^ 64 →
      l <+: (PVSSShare.codec S).enc x → l ≠ (PVSSShare.codec S).enc x → ∀ y, (PVSSShare.codec S).dec l ≠ .ok y) ∧
    (∀ x : AggShare r G1 G2, x.numParticipants < 2 ^ 64 → x.degree < 2 ^ 64 → x.core.encs.length < 2 ^ 64 →
      x.core.comms.length < 2 ^ 64 → x.contributions.entries.length < 2 ^ 64 → (∀ e ∈ x.contributions.entries, e.1 < 2 ^ 64) →
      l <+: (AggShare.codec S).enc x → l ≠ (AggShare.codec S).enc x → ∀ y, (AggShare.codec S).dec l ≠ .ok y) := by
  refine ⟨fun x => ?_, fun x h1 h2 => ?_, fun x h1 => ?_, fun x h1 h2 => ?_, fun x => ?_, fun x h1 h2 h3 => ?_,
    fun x h1 h2 h3 h4 h5 h6 => ?_⟩
  · exact prefix_refused (srs_stable S h) ((srs_lawful hC).on fun _ => True) trivial
  · exact prefix_refused (iso_stable (prod_stable (srs_stable S h) (prod_stable u64_stable u64_stable))) (config_lawful hC) ⟨h1, h2⟩
  · exact prefix_refused (iso_stable (prod_stable phantom_stable (prod_stable u64_stable (prod_stable h.stable1 publicKey_stable))))
      (participant_lawful hC) h1
  · exact prefix_refused (core_stable S h) (core_lawful hC) ⟨h1, h2⟩
  · exact prefix_refused (signed_stable S h) ((signedProof_lawful hC).on fun _ => True) trivial
  · exact prefix_refused (iso_stable (prod_stable u64_stable (prod_stable (core_stable S h) (signed_stable S h))))
      (pvssShare_lawful hC) ⟨h1, h2, h3⟩
  · exact prefix_refused (iso_stable (prod_stable u64_stable (prod_stable u64_stable (prod_stable (core_stable S h)
      (bmap_stable (prod_stable (signed_stable S h) weight_stable)))))) (aggShare_lawful hC) ⟨h1, h2, h3, h4, h5, h6⟩

/-- The toy suite meets the assumptions on point decoders. -/
theorem Toy.pointDecoders (r : ℕ) [Fact r.Prime] : Spec.PointDecoders (Toy.suite r) := by
  have hs : Spec.Safe (Toy.frCodec r) := by
    intro l
    simp only [Toy.frCodec]
    split
    · exact Or.inr ⟨_, rfl⟩
    · split
      · exact Or.inl ⟨_, rfl⟩
      · exact Or.inr ⟨_, rfl⟩
  have ht : Spec.Stable (Toy.frCodec r) := by
    intro l x rest more h
    simp only [Toy.frCodec] at h ⊢
    split at h
    · cases h
    · rename_i hl
      split at h
      · rename_i hv
        obtain ⟨rfl, rfl⟩ := Prod.mk.inj (Res.ok.inj h)
        rw [if_neg (by simp; omega), List.take_append_of_le_length (by omega), List.drop_append_of_le_length (by omega), if_pos hv]
      · cases h
  exact ⟨hs, hs, hs, ht, ht, ht⟩

/-- **C82** is false, for every suite that satisfies the laws: a share without its last byte is not reported as an error. -/
theorem C82_false (h : Spec.PointDecoders S) (hC : CodecLaws S n1 n2 nf) : ¬ C82_claim S := by
  intro hc
  have hp := (C82_truncated S n1 n2 nf h hC).2.1 ⟨0, ⟨[], []⟩, ⟨⟨(0, 0, 0), 0⟩, Toy.zeroSig⟩⟩ 1 (by norm_num) (by simp) (by simp)
    (by norm_num) (by norm_num)
  rcases hc.2.2.2.2.2.2.1 _ with ⟨x, hx⟩ | ⟨e, hx⟩
  · rw [hp] at hx; cases hx
  · rw [hp] at hx; cases hx

/-- Non-vacuity: the toy suite satisfies the hypotheses of all the theorems above. -/
example : ¬ C82_claim (Toy.suite 13) := C82_false _ 32 32 32 (Toy.pointDecoders 13) (Toy.codecLaws 13 (by omega))

/-- A transcript with two contributions, cut inside the last signature (20 bytes missing) and inside the last weight (3 bytes
missing). -/
example :
    (AggShare.codec (Toy.suite 13)).dec (((AggShare.codec (Toy.suite 13)).enc Toy.aggShare).take
      (((AggShare.codec (Toy.suite 13)).enc Toy.aggShare).length - 20)) = .panic ∧
    (AggShare.codec (Toy.suite 13)).dec (((AggShare.codec (Toy.suite 13)).enc Toy.aggShare).take
      (((AggShare.codec (Toy.suite 13)).enc Toy.aggShare).length - 3)) = .err .ioError := by
  have h := fun j => (C82_truncated _ 32 32 32 (Toy.pointDecoders 13) (Toy.codecLaws 13 (by omega))).2.2 Toy.aggShare j
    (by decide) (by decide) (by decide) (by decide) (by decide) (by decide) (by decide)
  exact ⟨(h 20).1 (by omega) (by omega), (h 3).2 (by omega) (by omega)⟩

end Verif
