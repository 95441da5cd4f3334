import Verif.Props.Malformed

/-!
# C82: exactly when decoding a transcript panics
-/

open Verif.Codec

namespace Verif

set_option linter.unusedSectionVars false

variable {r : ℕ} [Fact r.Prime] {G1 G2 K : Type} [AddCommGroup G1] [Module (ZMod r) G1] [DecidableEq G1] [AddCommGroup G2]
  [Module (ZMod r) G2] [DecidableEq G2] [CommMonoid K] [DecidableEq K]

theorem bind_panic {α β ε : Type} (x : Res ε α) (f : α → Res ε β) :
    (x >>= f) = .panic ↔ x = .panic ∨ ∃ a, x = .ok a ∧ f a = .panic := by
  cases x with
  | ok a => rw [Res.bind_ok']; simp
  | err e => constructor <;> intro h <;> simp at h
  | panic => simp
  | diverge => constructor <;> intro h <;> simp at h

theorem safe_no_panic {α : Type} {a : Codec α} (ha : Spec.Safe a) (l : List UInt8) : a.dec l ≠ .panic := by
  intro hl
  rcases ha l with ⟨x, hx⟩ | ⟨e, hx⟩ <;> rw [hx] at hl <;> cases hl

theorem prod_panic {α β : Type} (a : Codec α) (b : Codec β) (l : List UInt8) :
    (prod a b).dec l = .panic ↔ a.dec l = .panic ∨ ∃ x rest, a.dec l = .ok (x, rest) ∧ b.dec rest = .panic := by
  simp only [prod]
  rw [bind_panic]
  refine or_congr Iff.rfl ⟨?_, ?_⟩
  · rintro ⟨⟨x, rest⟩, h1, h2⟩
    refine ⟨x, rest, h1, ?_⟩
    simp only at h2
    rw [bind_panic] at h2
    rcases h2 with h2 | ⟨y, -, h3⟩
    · exact h2
    · cases h3
  · rintro ⟨x, rest, h1, h2⟩
    refine ⟨(x, rest), h1, ?_⟩
    simp only
    rw [bind_panic]
    exact Or.inl h2

theorem prod_panic_safe {α β : Type} {a : Codec α} (b : Codec β) (l : List UInt8) (ha : Spec.Safe a) :
    (prod a b).dec l = .panic ↔ ∃ x rest, a.dec l = .ok (x, rest) ∧ b.dec rest = .panic := by
  rw [prod_panic, or_iff_right (safe_no_panic ha l)]

theorem prod_panic_left {α β : Type} (a : Codec α) {b : Codec β} (l : List UInt8) (hb : Spec.Safe b) :
    (prod a b).dec l = .panic ↔ a.dec l = .panic := by
  rw [prod_panic, or_iff_left]
  rintro ⟨x, rest, -, h⟩
  exact safe_no_panic hb rest h

theorem iso_panic {α β : Type} (a : Codec α) (mk : α → β) (un : β → α) (l : List UInt8) : (a.iso mk un).dec l = .panic ↔ a.dec l = .panic := by
  simp only [Codec.iso]
  rw [bind_panic]
  refine or_iff_left ?_
  rintro ⟨⟨x, rest⟩, -, h⟩
  cases h

/-- Decoding `k` elements panics exactly if decoding one of them does, after those before it have been read. -/
theorem decN_panic {α : Type} (a : Codec α) : ∀ (k : ℕ) (l : List UInt8),
    decN a k l = .panic ↔ ∃ j < k, ∃ es rest, decN a j l = .ok (es, rest) ∧ a.dec rest = .panic
  | 0, l => by simp [decN]
  | k + 1, l => by
    rw [decN, bind_panic]
    constructor
    · rintro (h | ⟨⟨x, rest⟩, h1, h2⟩)
      · exact ⟨0, by omega, [], l, rfl, h⟩
      · simp only at h2
        rw [bind_panic] at h2
        rcases h2 with h2 | ⟨y, -, h3⟩
        · obtain ⟨j, hj, es, rest', h3, h4⟩ := (decN_panic a k rest).1 h2
          refine ⟨j + 1, by omega, x :: es, rest', ?_, h4⟩
          rw [decN, h1, Res.bind_ok']
          simp only
          rw [h3]
          rfl
        · cases h3
    · rintro ⟨j, hj, es, rest, h1, h2⟩
      cases j with
      | zero =>
        rw [decN] at h1
        obtain ⟨-, rfl⟩ := Prod.mk.inj (Res.ok.inj h1)
        exact Or.inl h2
      | succ j =>
        rw [decN] at h1
        cases hd : a.dec l with
        | ok p =>
          obtain ⟨x, l'⟩ := p
          refine Or.inr ⟨(x, l'), rfl, ?_⟩
          rw [hd, Res.bind_ok'] at h1
          simp only at h1 ⊢
          cases hn : decN a j l' with
          | ok q =>
            obtain ⟨xs, l''⟩ := q
            rw [hn, Res.bind_ok'] at h1
            obtain ⟨-, rfl⟩ := Prod.mk.inj (Res.ok.inj h1)
            rw [(decN_panic a k l').2 ⟨j, by omega, xs, _, hn, h2⟩]
            rfl
          | err e => rw [hn] at h1; cases h1
          | panic => rw [hn] at h1; cases h1
          | diverge => rw [hn] at h1; cases h1
        | err e => rw [hd] at h1; cases h1
        | panic => rw [hd] at h1; cases h1
        | diverge => rw [hd] at h1; cases h1

theorem prod_dec_ok {α β : Type} (a : Codec α) (b : Codec β) (l : List UInt8) (x : α) (y : β) (rest : List UInt8) :
    (prod a b).dec l = .ok ((x, y), rest) ↔ ∃ l', a.dec l = .ok (x, l') ∧ b.dec l' = .ok (y, rest) := by
  simp only [prod]
  constructor
  · intro h
    cases ha : a.dec l with
    | ok p =>
      obtain ⟨x', l'⟩ := p
      rw [ha, Res.bind_ok'] at h
      simp only at h
      cases hb : b.dec l' with
      | ok q =>
        obtain ⟨y', l''⟩ := q
        rw [hb, Res.bind_ok'] at h
        obtain ⟨h1, rfl⟩ := Prod.mk.inj (Res.ok.inj h)
        obtain ⟨rfl, rfl⟩ := Prod.mk.inj h1
        exact ⟨l', rfl, hb⟩
      | err e => rw [hb] at h; cases h
      | panic => rw [hb] at h; cases h
      | diverge => rw [hb] at h; cases h
    | err e => rw [ha] at h; cases h
    | panic => rw [ha] at h; cases h
    | diverge => rw [ha] at h; cases h
  · rintro ⟨l', h1, h2⟩
    rw [h1, Res.bind_ok']
    simp only
    rw [h2]
    rfl

/-- **C82** (exactly when decoding a transcript panics). Numbers, core and the number `k` of contributions decode, then for some `j < k`
the first `j` contributions, and then id and proof of the next, and fewer than 64 bytes follow. -/
theorem C82_transcript (S : Suite r G1 G2 K) (h : Spec.PointDecoders S) (l : List UInt8) :
    (AggShare.codec S).dec l = .panic ↔
      ∃ n d core k rest, (prod u64 (prod u64 (prod (PVSSCore.codec S) u64))).dec l = .ok ((n, d, core, k), rest) ∧
      ∃ j < k, ∃ es rest', decN (prod u64 (prod (SignedProof.codec S) weight)) j rest = .ok (es, rest') ∧
      ∃ x rest'', (prod u64 (DecompProof.codec S)).dec rest' = .ok (x, rest'') ∧ rest''.length < 64 := by
  have hentry : ∀ l, (prod u64 (prod (SignedProof.codec S) weight)).dec l = .panic ↔
      ∃ x rest, (prod u64 (DecompProof.codec S)).dec l = .ok (x, rest) ∧ rest.length < 64 := by
    intro l
    rw [prod_panic_safe _ l u64_safe]
    constructor
    · rintro ⟨i, rest, h1, h2⟩
      rw [prod_panic_left _ _ weight_safe, (C82_panic S h rest).2.1] at h2
      obtain ⟨d, rest', h3, h4⟩ := h2
      exact ⟨(i, d), rest', (prod_dec_ok _ _ _ _ _ _).2 ⟨rest, h1, h3⟩, h4⟩
    · rintro ⟨⟨i, d⟩, rest', h1, h4⟩
      obtain ⟨rest, h1, h3⟩ := (prod_dec_ok _ _ _ _ _ _).1 h1
      exact ⟨i, rest, h1, by rw [prod_panic_left _ _ weight_safe, (C82_panic S h rest).2.1]; exact ⟨d, rest', h3, h4⟩⟩
  have hmap : ∀ l, (bmap (prod (SignedProof.codec S) weight)).dec l = .panic ↔
      ∃ k rest, u64.dec l = .ok (k, rest) ∧ decN (prod u64 (prod (SignedProof.codec S) weight)) k rest = .panic := by
    intro l
    simp only [bmap]
    rw [bind_panic, or_iff_right (safe_no_panic u64_safe l)]
    constructor
    · rintro ⟨⟨k, rest⟩, h1, h2⟩
      simp only at h2
      rw [bind_panic] at h2
      rcases h2 with h2 | ⟨y, -, h3⟩
      · exact ⟨k, rest, h1, h2⟩
      · cases h3
    · rintro ⟨k, rest, h1, h2⟩
      refine ⟨(k, rest), h1, ?_⟩
      simp only
      rw [bind_panic]
      exact Or.inl h2
  rw [AggShare.codec, iso_panic, prod_panic_safe _ l u64_safe]
  simp only [prod_panic_safe _ _ u64_safe, prod_panic_safe _ _ (core_safe S h), hmap]
  simp only [decN_panic, hentry]
  constructor
  · rintro ⟨n, l1, h1, d, l2, h2, core, l3, h3, k, l4, h4, h5⟩
    exact ⟨n, d, core, k, l4, (prod_dec_ok _ _ _ _ _ _).2 ⟨l1, h1, (prod_dec_ok _ _ _ _ _ _).2 ⟨l2, h2, (prod_dec_ok _ _ _ _ _ _).2 ⟨l3, h3, h4⟩⟩⟩, h5⟩
  · rintro ⟨n, d, core, k, l4, h0, h5⟩
    obtain ⟨l1, h1, h0⟩ := (prod_dec_ok _ _ _ _ _ _).1 h0
    obtain ⟨l2, h2, h0⟩ := (prod_dec_ok _ _ _ _ _ _).1 h0
    obtain ⟨l3, h3, h4⟩ := (prod_dec_ok _ _ _ _ _ _).1 h0
    exact ⟨n, l1, h1, d, l2, h2, core, l3, h3, k, l4, h4, h5⟩

/-- A transcript with contributions that lacks its last nine bytes is such an input. -/
example (S : Suite r G1 G2 K) (h : Spec.PointDecoders S) {n1 n2 nf : ℕ} (hC : CodecLaws S n1 n2 nf) (a : AggShare r G1 G2)
    (h1 : a.numParticipants < 2 ^ 64) (h2 : a.degree < 2 ^ 64) (h3 : a.core.encs.length < 2 ^ 64) (h4 : a.core.comms.length < 2 ^ 64)
    (h5 : a.contributions.entries.length < 2 ^ 64) (h6 : ∀ e ∈ a.contributions.entries, e.1 < 2 ^ 64) (h7 : a.contributions.entries ≠ []) :
    ∃ n d core k rest, (prod u64 (prod u64 (prod (PVSSCore.codec S) u64))).dec
        (((AggShare.codec S).enc a).take (((AggShare.codec S).enc a).length - 9)) = .ok ((n, d, core, k), rest) ∧ 0 < k := by
  obtain ⟨n, d, core, k, rest, h0, j, hj, -⟩ := (C82_transcript S h _).1 (((C82_truncated S n1 n2 nf h hC).2.2 a 9 h1 h2 h3 h4 h5 h6 h7).1 (by omega) (by omega))
  exact ⟨n, d, core, k, rest, h0, by omega⟩

end Verif
