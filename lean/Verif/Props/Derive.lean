import Verif.Model.Derive
import Verif.Props.BlsWire

/-!
# Wire formats and hashes of the proof systems' and the Schnorr scheme's types: C111
-/

namespace Verif

open Codec WeierstrassCurve

/-- What a receiver may rely on: encodings decode to the value and leave what follows, they have `n` bytes, every byte string is
decoded or reported as an error, an encoding cut short is reported as an error, and what decodes to a value with `p` is its
encoding. -/
structure Spec.WireFormat {α : Type} (a : Codec α) (n : ℕ) (p : α → Prop) : Prop where
  roundtrip : ∀ x rest, a.dec (a.enc x ++ rest) = .ok (x, rest)
  size : ∀ x, (a.enc x).length = n
  total : ∀ l, (∃ x, a.dec l = .ok x) ∨ ∃ e, a.dec l = .err e
  short : ∀ l, l.length < n → ∃ e, a.dec l = .err e
  unique : ∀ l x rest, a.dec l = .ok (x, rest) → p x → l = a.enc x ++ rest

/-- A decoder with the assumptions made of points and scalars: they decode what they encode, their encodings have one length,
malformed input is an error, more input is left unread, fewer than `n` bytes are an error, and values with `p` have one
encoding. -/
structure Spec.Atom {α : Type} (a : Codec α) (n : ℕ) (p : α → Prop) : Prop where
  lawful : a.Lawful
  fixed : a.Fixed n
  safe : Spec.Safe a
  takes : ∀ l x rest, a.dec l = .ok (x, rest) → l.length = n + rest.length
  canon : ∀ l x rest, a.dec l = .ok (x, rest) → p x → l = a.enc x ++ rest

section
variable {α β : Type} {a : Codec α} {b : Codec β} {n m : ℕ} {p : α → Prop} {q : β → Prop}

theorem Spec.Atom.wire (h : Spec.Atom a n p) : Spec.WireFormat a n p where
  roundtrip := h.lawful
  size := h.fixed
  total := h.safe
  short l hl := by
    rcases h.safe l with ⟨⟨x, rest⟩, hx⟩ | he
    · have := h.takes _ _ _ hx; omega
    · exact he
  unique := h.canon

theorem Spec.Atom.prod (ha : Spec.Atom a n p) (hb : Spec.Atom b m q) : Spec.Atom (Codec.prod a b) (n + m) fun x => p x.1 ∧ q x.2 where
  lawful := (prod_lawful (ha.lawful.on fun _ => True) (hb.lawful.on fun _ => True)).lawful fun _ => ⟨trivial, trivial⟩
  fixed x := by simp [Codec.prod, ha.fixed x.1, hb.fixed x.2]
  safe := prod_safe ha.safe hb.safe
  takes l x rest h := by
    simp only [Codec.prod, Res.bind_eq_ok] at h
    obtain ⟨⟨x', l'⟩, h1, ⟨y', l''⟩, h2, h3⟩ := h
    obtain ⟨-, rfl⟩ := Prod.mk.inj (Res.ok.inj h3)
    have := ha.takes _ _ _ h1
    have := hb.takes _ _ _ h2
    simp only at *
    omega
  canon l x rest h hp := by
    simp only [Codec.prod, Res.bind_eq_ok] at h
    obtain ⟨⟨x', l'⟩, h1, ⟨y', l''⟩, h2, h3⟩ := h
    obtain ⟨rfl, rfl⟩ := Prod.mk.inj (Res.ok.inj h3)
    simp only at h2 hp
    rw [ha.canon _ _ _ h1 hp.1, hb.canon _ _ _ h2 hp.2]
    simp [Codec.prod]

theorem Spec.Atom.iso (ha : Spec.Atom a n p) (mk : α → β) (un : β → α) (h1 : ∀ x, mk (un x) = x) (h2 : ∀ x, un (mk x) = x) :
    Spec.Atom (a.iso mk un) n fun x => p (un x) where
  lawful x rest := by simp only [Codec.iso, ha.lawful (un x) rest, Res.bind_ok', h1]
  fixed x := ha.fixed _
  safe := iso_safe ha.safe
  takes l x rest h := by
    simp only [Codec.iso, Res.bind_eq_ok] at h
    obtain ⟨⟨x', l'⟩, h3, h4⟩ := h
    obtain ⟨-, rfl⟩ := Prod.mk.inj (Res.ok.inj h4)
    exact ha.takes _ _ _ h3
  canon l x rest h hp := by
    simp only [Codec.iso, Res.bind_eq_ok] at h
    obtain ⟨⟨x', l'⟩, h3, h4⟩ := h
    obtain ⟨rfl, rfl⟩ := Prod.mk.inj (Res.ok.inj h4)
    simp only [Codec.iso, h2] at hp ⊢
    exact ha.canon _ _ _ h3 hp

theorem Spec.WireFormat.mono {p' : α → Prop} (h : Spec.WireFormat a n p) (hp : ∀ x, p' x → p x) : Spec.WireFormat a n p' :=
  { h with unique := fun l x rest hd hx => h.unique l x rest hd (hp x hx) }

end

variable {r : ℕ} {G H : Type} {c1 : Codec G} {c2 : Codec H} {fr : Codec (ZMod r)} {n1 n2 nf : ℕ} {p1 : G → Prop} {p2 : H → Prop}

/-- **C111** (formats). From formats for points and scalars, the parameters, statements and proofs of both proof systems and the
parameters and signatures of the Schnorr scheme have a format of the stated size: 1 point; 1 point and 2 scalars; 2 points; 2
points and 2 scalars; 1 point; 1 point and 1 scalar.  `Decomp` has the empty encoding. -/
theorem C111_formats (h1 : Spec.Atom c1 n1 p1) (h2 : Spec.Atom c2 n2 p2) (hf : Spec.Atom fr nf fun _ => True) :
    Spec.WireFormat (DLK.srsCodec c1) n1 p1 ∧ Spec.WireFormat (DLK.statementCodec c1) n1 p1 ∧
    Spec.WireFormat (DLK.wire c1 fr) (n1 + 2 * nf) (fun x => p1 x.1) ∧
    Spec.WireFormat (DLEQ.srsCodec c1 c2) (n1 + n2) (fun x => p1 x.1 ∧ p2 x.2) ∧
    Spec.WireFormat (DLEQ.statementCodec c1 c2) (n1 + n2) (fun x => p1 x.1 ∧ p2 x.2) ∧
    Spec.WireFormat (DLEQ.wire c1 c2 fr) (n1 + n2 + 2 * nf) (fun x => p1 x.1.1 ∧ p2 x.1.2) ∧
    Spec.WireFormat (Schnorr.srsCodec c1) n1 p1 ∧ Spec.WireFormat (Schnorr.wire c1 fr) (n1 + nf) (fun x => p1 x.1) ∧
    Spec.WireFormat Decomp.codec 0 (fun _ => True) := by
  have e : nf + nf = 2 * nf := by omega
  refine ⟨(h1.iso _ _ (fun _ => rfl) fun _ => rfl).wire, h1.wire, ?_, ((h1.prod h2).iso _ _ (fun _ => rfl) fun _ => rfl).wire,
    (h1.prod h2).wire, ?_, (h1.iso _ _ (fun _ => rfl) fun _ => rfl).wire, ?_, ?_⟩
  · rw [← e]
    exact (h1.prod (hf.prod hf)).wire.mono fun x hx => ⟨hx, trivial, trivial⟩
  · rw [← e]
    exact ((h1.prod h2).prod (hf.prod hf)).wire.mono fun x hx => ⟨hx, trivial, trivial⟩
  · exact (h1.prod hf).wire.mono fun x hx => ⟨hx, trivial⟩
  · exact ⟨fun _ _ => rfl, fun _ => rfl, fun l => .inl ⟨_, rfl⟩, fun l hl => by omega, fun l x rest h _ => by
      obtain ⟨-, rfl⟩ := Prod.mk.inj (Res.ok.inj h); rfl⟩

/-- **C111** (layout). The bytes are the fields' in declaration order: a knowledge proof is the nonce's commitment, the
challenge, the response; an equality proof the two commitments, the challenge, the response; a signature the commitment, then the
response.  The knowledge proof inside a decomposition proof is written the same way. -/
theorem C111_layout :
    (∀ g : G, (DLK.srsCodec c1).enc g = c1.enc g) ∧ (∀ g : G, (Schnorr.srsCodec c1).enc g = c1.enc g) ∧
    (∀ x : DLK.Proof r G, (DLK.wire c1 fr).enc x = c1.enc x.1 ++ fr.enc x.2.1 ++ fr.enc x.2.2) ∧
    (∀ x : G × H, (DLEQ.srsCodec c1 c2).enc x = c1.enc x.1 ++ c2.enc x.2) ∧
    (∀ x : G × H, (DLEQ.statementCodec c1 c2).enc x = c1.enc x.1 ++ c2.enc x.2) ∧
    (∀ x : DLEQ.Proof r G H, (DLEQ.wire c1 c2 fr).enc x = c1.enc x.1.1 ++ c2.enc x.1.2 ++ fr.enc x.2.1 ++ fr.enc x.2.2) ∧
    (∀ x : Schnorr.Sig r G, (Schnorr.wire c1 fr).enc x = c1.enc x.1 ++ fr.enc x.2) ∧
    (∀ u, Decomp.codec.enc u = []) ∧
    (∀ (G1 G2 K : Type) [AddCommGroup G1] [DecidableEq G1] [AddCommGroup G2] [DecidableEq G2] (S : Suite r G1 G2 K)
      (d : DecompProof r G2), messageFromPi S d = (DLK.wire S.c2.codec S.frC).enc d.proof ++ (DLK.statementCodec S.c2.codec).enc d.gs) :=
  ⟨fun _ => rfl, fun _ => rfl, fun _ => (List.append_assoc _ _ _).symm, fun _ => rfl, fun _ => rfl,
    fun _ => by simp [DLEQ.wire, Codec.prod], fun _ => rfl, fun _ => rfl, fun _ _ _ _ _ _ _ _ _ => rfl⟩

/-- A feed of one length that tells values apart, as the feeds of points and scalars do. -/
structure Spec.GoodFeed {α : Type} (f : HashFeed α) (n : ℕ) : Prop where
  fixed : ∀ x, (f x).length = n
  inj : ∀ x y, f x = f y → x = y

theorem bytes_feed {n : ℕ} : Spec.GoodFeed (Bytes.hashFeed (n := n)) (8 + n) where
  fixed x := by simp [Bytes.hashFeed, x.2]
  inj x y h := by
    apply Subtype.ext
    exact (List.append_inj h (by simp)).2

/-- **C111** (hashes). A digest and a public key feed a hasher the length 32 in 8 bytes and then their bytes; a decomposition
proof feeds its commitment to the nonce, challenge, response and commitment to the secret, the parameters of knowledge proofs
their generator.  Each feed has one length and tells values apart if those of points and scalars do: values are equal exactly
when they feed the same bytes, also when other values are hashed before and after. -/
theorem C111_hash {pt : HashFeed G} {sc : HashFeed (ZMod r)} {np ns : ℕ} (hp : Spec.GoodFeed pt np) (hs : Spec.GoodFeed sc ns) :
    (∀ d : Digest, d.hashFeed = [32, 0, 0, 0, 0, 0, 0, 0] ++ d.bytes.1) ∧
    (∀ k : PublicKey, k.hashFeed = [32, 0, 0, 0, 0, 0, 0, 0] ++ k.bytes.1) ∧
    (∀ d : DecompProof r G, d.hashFeed pt sc = pt d.proof.1 ++ sc d.proof.2.1 ++ sc d.proof.2.2 ++ pt d.gs) ∧
    (∀ g : G, DLK.hashFeed pt g = pt g ∧ DLK.srsHashFeed pt g = pt g) ∧
    (∀ (d d' : Digest) (s s' : List UInt8), d.hashFeed ++ s = d'.hashFeed ++ s' ↔ d = d' ∧ s = s') ∧
    (∀ (k k' : PublicKey) (s s' : List UInt8), k.hashFeed ++ s = k'.hashFeed ++ s' ↔ k = k' ∧ s = s') ∧
    (∀ (d d' : DecompProof r G) (s s' : List UInt8), d.hashFeed pt sc ++ s = d'.hashFeed pt sc ++ s' ↔ d = d' ∧ s = s') ∧
    (∀ (g g' : G) (s s' : List UInt8), DLK.hashFeed pt g ++ s = DLK.hashFeed pt g' ++ s' ↔ g = g' ∧ s = s') := by
  have h32 : Codec.leBytes 8 32 = [32, 0, 0, 0, 0, 0, 0, 0] := by decide
  have hb : ∀ b : Bytes 32, Bytes.hashFeed b = [32, 0, 0, 0, 0, 0, 0, 0] ++ b.1 := fun b => by
    rw [Bytes.hashFeed, b.2, h32]
  have hf := bytes_feed (n := 32)
  refine ⟨fun d => hb _, fun k => hb _, fun d => by simp [DecompProof.hashFeed], fun g => ⟨rfl, rfl⟩, ?_, ?_, ?_, ?_⟩
  · intro d d' s s'
    refine ⟨fun h => ?_, fun h => by rw [h.1, h.2]⟩
    obtain ⟨e1, e2⟩ := List.append_inj h (by simp only [Digest.hashFeed, hf.fixed])
    cases d; cases d'
    exact ⟨congrArg _ (hf.inj _ _ e1), e2⟩
  · intro d d' s s'
    refine ⟨fun h => ?_, fun h => by rw [h.1, h.2]⟩
    obtain ⟨e1, e2⟩ := List.append_inj h (by simp only [PublicKey.hashFeed, hf.fixed])
    cases d; cases d'
    exact ⟨congrArg _ (hf.inj _ _ e1), e2⟩
  · intro d d' s s'
    refine ⟨fun h => ?_, fun h => by rw [h.1, h.2]⟩
    obtain ⟨e1, e2⟩ := List.append_inj h (by simp [DecompProof.hashFeed, hp.fixed, hs.fixed])
    obtain ⟨e3, e4⟩ := List.append_inj e1 (by simp [hp.fixed, hs.fixed])
    obtain ⟨e5, e6⟩ := List.append_inj e3 (by simp [hp.fixed])
    obtain ⟨e7, e8⟩ := List.append_inj e6 (by simp [hs.fixed])
    obtain ⟨⟨x, y, z⟩, gs⟩ := d
    obtain ⟨⟨x', y', z'⟩, gs'⟩ := d'
    have f1 := hp.inj _ _ e5
    have f2 := hs.inj _ _ e7
    have f3 := hs.inj _ _ e8
    have f4 := hp.inj _ _ e4
    simp only at f1 f2 f3 f4
    subst f1 f2 f3 f4
    exact ⟨rfl, e2⟩
  · intro g g' s s'
    refine ⟨fun h => ?_, fun h => by rw [h.1, h.2]⟩
    obtain ⟨e1, e2⟩ := List.append_inj h (by simp only [DLK.hashFeed, DLK.srsHashFeed, hp.fixed])
    exact ⟨hp.inj _ _ e1, e2⟩

/-! ### at BLS12-381 -/

theorem pointCodec_takes {F : Type} [Field F] [DecidableEq F] {w : FieldWire F} {n r : ℕ} {a b : F}
    (ht : ∀ l x fl rest, w.dec l = .ok (x, fl, rest) → l.length = n + rest.length) {l rest : List UInt8}
    {P : torsion r (swCurve a b).Point} (h : (pointCodec w r a b).dec l = .ok (P, rest)) :
    l.length = n + rest.length := by
  simp only [pointCodec] at h
  cases hd : w.dec l with
  | ok v =>
    obtain ⟨x, fl, rs⟩ := v
    rw [ht _ _ _ _ hd]
    rw [hd] at h
    simp only [Res.bind_ok'] at h
    have key : ∀ (Q : Prop) (d : Decidable Q) (f : Q → torsion r (swCurve a b).Point), @dite _ Q d
        (fun h => Res.ok (f h, rs)) (fun _ => .err SerError.invalidData) = .ok (P, rest) → rs = rest := by
      intro Q d f h
      split at h
      · exact (Prod.mk.inj (Res.ok.inj h)).2
      · cases h
    suffices rs = rest by rw [this]
    split at h
    · exact (Prod.mk.inj (Res.ok.inj h)).2
    · split at h
      · exact key _ _ _ h
      · cases h
  | err e => rw [hd] at h; cases h
  | panic => rw [hd] at h; cases h
  | diverge => rw [hd] at h; cases h

/-- The formats of points and scalars of `ark-bls12-381`. -/
theorem arkAtoms : Spec.Atom arkG1.codec 48 (· ≠ 0) ∧ Spec.Atom arkG2.codec 96 (· ≠ 0) ∧ Spec.Atom arkFr 32 fun _ => True := by
  refine ⟨⟨pointCodec_lawful wireFq_good, pointCodec_fixed wireFq_good, pointCodec_safe wireFq_tame _ _ _, fun l P rest h =>
    pointCodec_takes (fun l x fl rest h => ?_) h, C96_canonical.1⟩, ⟨pointCodec_lawful wireFq2_good, pointCodec_fixed wireFq2_good,
    pointCodec_safe wireFq2_tame _ _ _, fun l P rest h => pointCodec_takes (fun l x fl rest h => ?_) h, C96_canonical.2.1⟩,
    ⟨arkFr_lawful, arkFr_fixed, (Toy.pointDecoders blsR).safeF, fun l x rest h => ?_, fun l x rest h _ =>
    C96_canonical.2.2 l x rest h⟩⟩
  · rw [(wireFq_canonical h).1, List.length_append, wireFq_good.size]
  · rw [(wireFq2_canonical h).1, List.length_append, wireFq2_good.size]
  · rw [C96_canonical.2.2 l x rest h, List.length_append, arkFr_fixed]

/-- **C111** (BLS12-381). A knowledge proof over G2 takes 160 bytes, an equality proof over G1 and G2 208, a Schnorr signature
over G1 80, and the formats above hold; only values with a point at infinity have more than one encoding. -/
theorem C111_bls :
    Spec.WireFormat (DLK.wire arkG2.codec arkFr) 160 (fun x => x.1 ≠ 0) ∧
    Spec.WireFormat (DLEQ.wire arkG1.codec arkG2.codec arkFr) 208 (fun x => x.1.1 ≠ 0 ∧ x.1.2 ≠ 0) ∧
    Spec.WireFormat (Schnorr.wire arkG1.codec arkFr) 80 (fun x => x.1 ≠ 0) ∧
    Spec.WireFormat (DLK.srsCodec arkG2.codec) 96 (· ≠ 0) ∧
    Spec.WireFormat (DLEQ.srsCodec arkG1.codec arkG2.codec) 144 (fun x => x.1 ≠ 0 ∧ x.2 ≠ 0) ∧
    Spec.WireFormat (Schnorr.srsCodec arkG1.codec) 48 (· ≠ 0) := by
  obtain ⟨h1, h2, hf⟩ := arkAtoms
  obtain ⟨-, -, -, a4, -, a6, a7, a8, -⟩ := C111_formats h1 h2 hf
  obtain ⟨b1, -, b3, -⟩ := C111_formats h2 h1 hf
  exact ⟨b3, a6, a8, b1, a4, a7⟩

/-- Non-vacuity: the Schnorr signature `(generator, 5)` at BLS12-381 is sent and read back, its last byte missing is an error. -/
example : (Schnorr.wire arkG1.codec arkFr).dec ((Schnorr.wire arkG1.codec arkFr).enc (blsG1, 5)) = .ok ((blsG1, 5), []) ∧
    ∃ e, (Schnorr.wire arkG1.codec arkFr).dec (((Schnorr.wire arkG1.codec arkFr).enc (blsG1, 5)).take 79) = .err e := by
  have h := C111_bls.2.2.1
  refine ⟨by simpa using h.roundtrip (blsG1, 5) [], h.short _ ?_⟩
  simp [h.size]

/-- Non-vacuity: what the all-zero digest feeds a hasher, and feeds of scalars modulo 13 that tell values apart. -/
example : Digest.default.hashFeed = 32 :: List.replicate 39 0 ∧
    Spec.GoodFeed (fun x : ZMod 13 => [UInt8.ofNat x.val]) 1 :=
  ⟨by decide, fun _ => rfl, by decide⟩

end Verif
