import Verif.Props.BlsWire
import Verif.Props.MalformedAgg

/-!
# Three tests when reading make the decoders exact: C123

C55 and C82 are false of the code. The decoders here differ from the code's in three places: a key or signature that is cut off is an error
(lib.rs:164, 345 unwrap it), the keys of a map have to increase (`ark-serialize` inserts the pairs as they come), and a point has to be
written as `serialize` writes it (`ark-ec` does not look at the `x` of infinity).
-/

namespace Verif
open Codec

set_option linter.unusedSectionVars false

section
variable {α β V : Type}

/-- The decoder inverts the encoder: on every input it gives a value or an error, and it gives a value exactly for the encodings of the
values in `P`. -/
def Spec.Inverse (a : Codec α) (P : α → Prop) : Prop :=
  Spec.Safe a ∧ ∀ l x rest, a.dec l = .ok (x, rest) ↔ P x ∧ l = a.enc x ++ rest

/-- Input that is shorter than `n` bytes is an error. -/
def Spec.sized (n : ℕ) (a : Codec α) : Codec α where
  enc := a.enc
  dec l := if l.length < n then .err .ioError else a.dec l

/-- What has been read has to be what `serialize` writes. -/
def Spec.asWritten (a : Codec α) : Codec α where
  enc := a.enc
  dec l := do
    let (x, rest) ← a.dec l
    if l = a.enc x ++ rest then .ok (x, rest) else .err .invalidData

/-- A map whose keys have to increase. -/
def Spec.sortedMap (a : Codec V) : Codec (BMap V) where
  enc := (bmap a).enc
  dec l := do
    let (n, l) ← u64.dec l
    let (kvs, l) ← decN (prod u64 a) n l
    if kvs.Pairwise (fun x y => x.1 < y.1) then .ok (BMap.ofList kvs, l) else .err .invalidData

theorem Spec.Inverse.mono {a : Codec α} {P Q : α → Prop} (h : Spec.Inverse a P) (hPQ : ∀ x, P x ↔ Q x) : Spec.Inverse a Q :=
  ⟨h.1, fun l x rest => by rw [h.2, hPQ]⟩

theorem asWritten_inverse {a : Codec α} (hs : Spec.Safe a) (hl : a.Lawful) : Spec.Inverse (Spec.asWritten a) fun _ => True := by
  refine ⟨fun l => safe_bind (hs l) fun x => ?_, fun l x rest => ?_⟩
  · simp only
    split
    · exact Or.inl ⟨_, rfl⟩
    · exact Or.inr ⟨_, rfl⟩
  · simp only [Spec.asWritten, true_and]
    constructor
    · intro h
      rw [Res.bind_eq_ok] at h
      obtain ⟨⟨y, rest'⟩, h1, h2⟩ := h
      simp only at h2
      split at h2
      · rename_i he
        obtain ⟨rfl, rfl⟩ := Prod.mk.inj (Res.ok.inj h2)
        exact he
      · cases h2
    · rintro rfl
      rw [hl x rest, Res.bind_ok']
      simp

theorem canonical_inverse {a : Codec α} (hs : Spec.Safe a) (hl : a.Lawful) (hc : a.Canonical) : Spec.Inverse a fun _ => True :=
  ⟨hs, fun l x rest => ⟨fun h => ⟨trivial, hc l x rest h⟩, fun h => by rw [h.2]; exact hl x rest⟩⟩

theorem u64_inverse : Spec.Inverse u64 (· < 2 ^ 64) := by
  refine ⟨u64_safe, fun l x rest => ⟨fun h => ⟨?_, u64_canonical l x rest h⟩, fun h => by rw [h.2]; exact u64_lawful x h.1 rest⟩⟩
  simp only [u64] at h
  split at h
  · cases h
  · obtain ⟨rfl, rfl⟩ := Prod.mk.inj (Res.ok.inj h)
    refine lt_of_lt_of_le (leVal_lt _) ?_
    rw [List.length_take, min_eq_left (by omega)]
    norm_num

theorem weight_inverse : Spec.Inverse weight fun _ => True := canonical_inverse weight_safe weight_lawful weight_canonical

theorem phantom_inverse : Spec.Inverse phantom fun _ => True := canonical_inverse phantom_safe phantom_lawful phantom_canonical

theorem sized_inverse {n : ℕ} {a : Codec α} (hl : a.Lawful) (hc : a.Canonical) (hn : ∀ x, (a.enc x).length = n)
    (hs : ∀ l : List UInt8, n ≤ l.length → ∃ x, a.dec l = .ok x) : Spec.Inverse (Spec.sized n a) fun _ => True := by
  refine ⟨fun l => ?_, fun l x rest => ?_⟩
  · simp only [Spec.sized]
    split
    · exact Or.inr ⟨_, rfl⟩
    · exact Or.inl (hs l (by omega))
  · simp only [Spec.sized, true_and]
    constructor
    · intro h
      split at h
      · cases h
      · exact hc l x rest h
    · rintro rfl
      rw [if_neg (by rw [List.length_append, hn]; omega)]
      exact hl x rest

theorem prod_inverse {a : Codec α} {b : Codec β} {P : α → Prop} {Q : β → Prop} (ha : Spec.Inverse a P) (hb : Spec.Inverse b Q) :
    Spec.Inverse (prod a b) fun x => P x.1 ∧ Q x.2 := by
  refine ⟨prod_safe ha.1 hb.1, fun l x rest => ?_⟩
  obtain ⟨x, y⟩ := x
  rw [prod_dec_ok]
  simp only [ha.2, hb.2, prod]
  constructor
  · rintro ⟨m, ⟨h1, rfl⟩, h2, rfl⟩
    exact ⟨⟨h1, h2⟩, by rw [List.append_assoc]⟩
  · rintro ⟨⟨h1, h2⟩, rfl⟩
    exact ⟨_, ⟨h1, by rw [List.append_assoc]⟩, h2, rfl⟩

theorem iso_inverse {a : Codec α} {mk : α → β} {un : β → α} {P : α → Prop} (ha : Spec.Inverse a P) (h1 : ∀ x, un (mk x) = x)
    (h2 : ∀ y, mk (un y) = y) : Spec.Inverse (a.iso mk un) fun y => P (un y) := by
  refine ⟨iso_safe ha.1, fun l y rest => ?_⟩
  simp only [iso]
  rw [Res.bind_eq_ok]
  constructor
  · rintro ⟨⟨x, l'⟩, h, he⟩
    obtain ⟨rfl, rfl⟩ := Prod.mk.inj (Res.ok.inj he)
    simpa only [h1] using (ha.2 _ _ _).1 h
  · intro h
    exact ⟨(un y, rest), (ha.2 _ _ _).2 h, by simp only [h2]⟩

theorem decN_inverse {a : Codec α} {P : α → Prop} (ha : Spec.Inverse a P) (n : ℕ) (l : List UInt8) (xs : List α) (rest : List UInt8) :
    decN a n l = .ok (xs, rest) ↔ xs.length = n ∧ (∀ x ∈ xs, P x) ∧ l = (xs.map a.enc).flatten ++ rest := by
  induction n generalizing l xs with
  | zero =>
    simp only [decN, List.length_eq_zero_iff]
    constructor
    · intro h
      obtain ⟨rfl, rfl⟩ := Prod.mk.inj (Res.ok.inj h)
      simp
    · rintro ⟨rfl, -, rfl⟩
      simp
  | succ n ih =>
    simp only [decN]
    rw [Res.bind_eq_ok]
    constructor
    · rintro ⟨⟨x, l1⟩, h1, h⟩
      simp only at h
      rw [Res.bind_eq_ok] at h
      obtain ⟨⟨ys, l2⟩, h2, h⟩ := h
      obtain ⟨rfl, rfl⟩ := Prod.mk.inj (Res.ok.inj h)
      obtain ⟨hx, rfl⟩ := (ha.2 _ _ _).1 h1
      obtain ⟨hn, hys, rfl⟩ := (ih _ _).1 h2
      refine ⟨by simp [hn], ?_, by simp⟩
      intro y hy
      rcases List.mem_cons.1 hy with rfl | hy
      · exact hx
      · exact hys y hy
    · rintro ⟨hn, hP, rfl⟩
      cases xs with
      | nil => cases hn
      | cons x ys =>
        refine ⟨(x, (ys.map a.enc).flatten ++ rest), (ha.2 _ _ _).2 ⟨hP x (by simp), by simp⟩, ?_⟩
        simp only
        rw [(ih _ ys).2 ⟨by simpa using hn, fun y hy => hP y (by simp [hy]), rfl⟩, Res.bind_ok']

theorem vec_inverse {a : Codec α} {P : α → Prop} (ha : Spec.Inverse a P) :
    Spec.Inverse (vec a) fun xs => xs.length < 2 ^ 64 ∧ ∀ x ∈ xs, P x := by
  refine ⟨vec_safe ha.1, fun l xs rest => ?_⟩
  simp only [vec]
  rw [Res.bind_eq_ok]
  constructor
  · rintro ⟨⟨n, l1⟩, h1, h2⟩
    obtain ⟨hn, rfl⟩ := (u64_inverse.2 _ _ _).1 h1
    obtain ⟨rfl, hP, rfl⟩ := (decN_inverse ha _ _ _ _).1 h2
    exact ⟨⟨hn, hP⟩, by rw [List.append_assoc]⟩
  · rintro ⟨⟨hn, hP⟩, rfl⟩
    exact ⟨(xs.length, (xs.map a.enc).flatten ++ rest), (u64_inverse.2 _ _ _).2 ⟨hn, by rw [List.append_assoc]⟩,
      (decN_inverse ha _ _ _ _).2 ⟨rfl, hP, rfl⟩⟩

theorem sortedMap_inverse {a : Codec V} {P : V → Prop} (ha : Spec.Inverse a P) :
    Spec.Inverse (Spec.sortedMap a) fun m => m.entries.length < 2 ^ 64 ∧ ∀ e ∈ m.entries, e.1 < 2 ^ 64 ∧ P e.2 := by
  have hp := prod_inverse u64_inverse ha
  refine ⟨fun l => safe_bind (u64_safe l) fun x => safe_bind (decN_safe hp.1 _ _) fun y => ?_, fun l m rest => ?_⟩
  · simp only
    split
    · exact Or.inl ⟨_, rfl⟩
    · exact Or.inr ⟨_, rfl⟩
  simp only [Spec.sortedMap, bmap]
  rw [Res.bind_eq_ok]
  constructor
  · rintro ⟨⟨n, l1⟩, h1, h⟩
    simp only at h
    rw [Res.bind_eq_ok] at h
    obtain ⟨⟨kvs, l2⟩, h2, h⟩ := h
    simp only at h
    split at h
    · rename_i hs
      obtain ⟨rfl, rfl⟩ := Prod.mk.inj (Res.ok.inj h)
      have hof : BMap.ofList kvs = ⟨kvs, hs⟩ := BMap.ofList_entries ⟨kvs, hs⟩
      obtain ⟨hn, rfl⟩ := (u64_inverse.2 _ _ _).1 h1
      obtain ⟨rfl, hP, rfl⟩ := (decN_inverse hp _ _ _ _).1 h2
      rw [hof]
      exact ⟨⟨hn, hP⟩, by rw [List.append_assoc]; rfl⟩
    · cases h
  · rintro ⟨⟨hn, hP⟩, rfl⟩
    refine ⟨(m.entries.length, (m.entries.map (prod u64 a).enc).flatten ++ rest), (u64_inverse.2 _ _ _).2 ⟨hn, by rw [List.append_assoc]⟩, ?_⟩
    simp only
    rw [(decN_inverse hp _ _ _ _).2 ⟨rfl, hP, rfl⟩, Res.bind_ok']
    simp only
    have hs : m.entries.Pairwise (fun x y => x.1 < y.1) := m.2
    rw [if_pos hs, BMap.ofList_entries]

end

/-! ### The protocol's types -/

variable {r : ℕ} [Fact r.Prime] {G1 G2 K : Type} [AddCommGroup G1] [DecidableEq G1] [AddCommGroup G2] [DecidableEq G2]
  [Module (ZMod r) G1] [Module (ZMod r) G2] [CommMonoid K] [DecidableEq K] (S : Suite r G1 G2 K) (n1 n2 nf : ℕ)

/-- The suite with points read strictly. -/
def Spec.strictPoints : Suite r G1 G2 K :=
  { S with c1 := { S.c1 with codec := Spec.asWritten S.c1.codec }, c2 := { S.c2 with codec := Spec.asWritten S.c2.codec } }

/-- `Participant`, read strictly. -/
def Spec.strictParticipant : Codec (Participant G1) :=
  (prod phantom (prod u64 (prod (Spec.strictPoints S).c1.codec (Spec.sized 32 PublicKey.codec)))).iso
    (fun x => ⟨x.2.1, x.2.2.1, x.2.2.2⟩) (fun p => ((), p.id, p.pkSig, p.pkEd))

/-- `SignedProof`, read strictly. -/
def Spec.strictSigned : Codec (SignedProof r G2) :=
  (prod (DecompProof.codec (Spec.strictPoints S)) (Spec.sized 64 Signature.codec)).iso (fun x => ⟨x.1, x.2⟩)
    (fun p => (p.decompProof, p.signature))

/-- `PVSSShare`, read strictly. -/
def Spec.strictShare : Codec (PVSSShare r G1 G2) :=
  (prod u64 (prod (PVSSCore.codec (Spec.strictPoints S)) (Spec.strictSigned S))).iso
    (fun x => ⟨x.1, x.2.1, x.2.2⟩) (fun s => (s.participantId, s.core, s.signedProof))

/-- `PVSSAggregatedShare`, read strictly. -/
def Spec.strictAgg : Codec (AggShare r G1 G2) :=
  (prod u64 (prod u64 (prod (PVSSCore.codec (Spec.strictPoints S)) (Spec.sortedMap (prod (Spec.strictSigned S) weight))))).iso
    (fun x => ⟨x.1, x.2.1, x.2.2.1, x.2.2.2⟩) (fun a => (a.numParticipants, a.degree, a.core, a.contributions))

/-- The lengths of a core fit in `u64`. -/
def Spec.CoreFits (c : PVSSCore G1 G2) : Prop := c.encs.length < 2 ^ 64 ∧ c.comms.length < 2 ^ 64

/-- All numbers of a transcript fit in `u64`. -/
def Spec.AggFits (a : AggShare r G1 G2) : Prop :=
  a.numParticipants < 2 ^ 64 ∧ a.degree < 2 ^ 64 ∧ Spec.CoreFits a.core ∧ a.contributions.entries.length < 2 ^ 64 ∧
    ∀ e ∈ a.contributions.entries, e.1 < 2 ^ 64

/-- **C123**. With the three tests every decoder of the protocol inverts `serialize`: every byte string gives a value or an error, and it
gives a value exactly if it starts with the serialization of that value. So there is one encoding of each value (the claim of C55, for all
types) and no panic (the claim of C82). -/
theorem C123 (h : Spec.PointDecoders S) (hC : CodecLaws S n1 n2 nf) (hf : S.frC.Canonical) :
    Spec.Inverse (SRS.codec (Spec.strictPoints S)) (fun _ => True) ∧
    Spec.Inverse (Config.codec (Spec.strictPoints S)) (fun c => c.degree < 2 ^ 64 ∧ c.numParticipants < 2 ^ 64) ∧
    Spec.Inverse (Spec.strictParticipant S) (fun p => p.id < 2 ^ 64) ∧
    Spec.Inverse (PVSSCore.codec (Spec.strictPoints S)) Spec.CoreFits ∧
    Spec.Inverse (DecompProof.codec (Spec.strictPoints S)) (fun _ => True) ∧
    Spec.Inverse (Spec.strictSigned S) (fun _ => True) ∧
    Spec.Inverse (Spec.strictShare S) (fun s => s.participantId < 2 ^ 64 ∧ Spec.CoreFits s.core) ∧
    Spec.Inverse (Spec.strictAgg S) Spec.AggFits := by
  have h1 : Spec.Inverse (Spec.strictPoints S).c1.codec fun _ => True := asWritten_inverse h.safe1 hC.c1
  have h2 : Spec.Inverse (Spec.strictPoints S).c2.codec fun _ => True := asWritten_inverse h.safe2 hC.c2
  have h3 : Spec.Inverse (Spec.strictPoints S).frC fun _ => True := canonical_inverse h.safeF hC.fr hf
  have hpk : Spec.Inverse (Spec.sized 32 PublicKey.codec) fun _ => True := sized_inverse publicKey_lawful publicKey_canonical
    publicKey_enc_length fun l hl => by
      obtain ⟨-, k, hk, -⟩ := (C54_long l).1 hl
      exact ⟨_, hk⟩
  have hsg : Spec.Inverse (Spec.sized 64 Signature.codec) fun _ => True := sized_inverse signature_lawful signature_canonical
    signature_enc_length fun l hl => by
      obtain ⟨-, k, hk, -⟩ := (C54_long l).2 hl
      exact ⟨_, hk⟩
  have hsrs : Spec.Inverse (SRS.codec (Spec.strictPoints S)) fun _ => True :=
    (iso_inverse (prod_inverse h1 (prod_inverse h2 h2)) (fun _ => rfl) fun _ => rfl).mono (by simp)
  have hcore : Spec.Inverse (PVSSCore.codec (Spec.strictPoints S)) Spec.CoreFits :=
    (iso_inverse (prod_inverse (vec_inverse h1) (vec_inverse h2)) (fun _ => rfl) fun _ => rfl).mono (by simp [Spec.CoreFits])
  have hd : Spec.Inverse (DecompProof.codec (Spec.strictPoints S)) fun _ => True :=
    (iso_inverse (prod_inverse (prod_inverse h2 (prod_inverse h3 h3)) h2) (fun _ => rfl) fun _ => rfl).mono (by simp)
  have hs : Spec.Inverse (Spec.strictSigned S) fun _ => True :=
    (iso_inverse (prod_inverse hd hsg) (fun _ => rfl) fun _ => rfl).mono (by simp)
  refine ⟨hsrs, ?_, ?_, hcore, hd, hs, ?_, ?_⟩
  · exact (iso_inverse (prod_inverse hsrs (prod_inverse u64_inverse u64_inverse)) (fun _ => rfl) fun _ => rfl).mono (by simp)
  · exact (iso_inverse (prod_inverse phantom_inverse (prod_inverse u64_inverse (prod_inverse h1 hpk))) (fun _ => rfl)
      fun _ => rfl).mono (by simp)
  · exact (iso_inverse (prod_inverse u64_inverse (prod_inverse hcore hs)) (fun _ => rfl) fun _ => rfl).mono (by simp)
  · exact (iso_inverse (prod_inverse u64_inverse (prod_inverse u64_inverse (prod_inverse hcore
      (sortedMap_inverse (prod_inverse hs weight_inverse))))) (fun _ => rfl) fun _ => rfl).mono (by simp [Spec.AggFits])

/-- **C123** (compatibility). The strict decoders write what the code writes, and what they read the code reads as the same value. -/
theorem C123_compatible (h : Spec.PointDecoders S) (hC : CodecLaws S n1 n2 nf) (hf : S.frC.Canonical) :
    ((Spec.strictParticipant S).enc = (Participant.codec S).enc ∧ (Spec.strictShare S).enc = (PVSSShare.codec S).enc ∧
      (Spec.strictAgg S).enc = (AggShare.codec S).enc) ∧
    (∀ l x, (Spec.strictParticipant S).dec l = .ok x → (Participant.codec S).dec l = .ok x) ∧
    (∀ l x, (Spec.strictShare S).dec l = .ok x → (PVSSShare.codec S).dec l = .ok x) ∧
    ∀ l x, (Spec.strictAgg S).dec l = .ok x → (AggShare.codec S).dec l = .ok x := by
  obtain ⟨-, -, hp, -, -, -, hs, ha⟩ := C123 S n1 n2 nf h hC hf
  refine ⟨⟨rfl, rfl, rfl⟩, fun l x hx => ?_, fun l x hx => ?_, fun l x hx => ?_⟩
  · obtain ⟨hP, rfl⟩ := (hp.2 l x.1 x.2).1 hx
    exact participant_lawful hC x.1 hP x.2
  · obtain ⟨hP, rfl⟩ := (hs.2 l x.1 x.2).1 hx
    exact pvssShare_lawful hC x.1 hP x.2
  · obtain ⟨hP, rfl⟩ := (ha.2 l x.1 x.2).1 hx
    exact aggShare_lawful hC x.1 ⟨hP.1, hP.2.1, hP.2.2.1.1, hP.2.2.1.2, hP.2.2.2.1, hP.2.2.2.2⟩ x.2

/-! What the code reads fits in 64 bits. -/

theorem decN_reads {α : Type} {a : Codec α} {P : α → Prop} (ha : ∀ l x rest, a.dec l = .ok (x, rest) → P x) :
    ∀ (n : ℕ) (l : List UInt8) (xs : List α) (rest : List UInt8), decN a n l = .ok (xs, rest) → xs.length = n ∧ ∀ x ∈ xs, P x := by
  intro n
  induction n with
  | zero =>
    intro l xs rest h
    simp only [decN] at h
    obtain ⟨rfl, -⟩ := Prod.mk.inj (Res.ok.inj h)
    simp
  | succ n ih =>
    intro l xs rest h
    simp only [decN] at h
    rw [Res.bind_eq_ok] at h
    obtain ⟨⟨x, l1⟩, h1, h⟩ := h
    simp only at h
    rw [Res.bind_eq_ok] at h
    obtain ⟨⟨ys, l2⟩, h2, h⟩ := h
    obtain ⟨rfl, -⟩ := Prod.mk.inj (Res.ok.inj h)
    obtain ⟨hn, hy⟩ := ih _ _ _ h2
    refine ⟨by simp [hn], fun y hy' => ?_⟩
    rcases List.mem_cons.1 hy' with rfl | hy'
    · exact ha _ _ _ h1
    · exact hy y hy'

theorem vec_length {α : Type} (a : Codec α) {l : List UInt8} {xs : List α} {rest : List UInt8} (h : (vec a).dec l = .ok (xs, rest)) :
    xs.length < 2 ^ 64 := by
  simp only [vec] at h
  rw [Res.bind_eq_ok] at h
  obtain ⟨⟨n, l1⟩, h1, h2⟩ := h
  rw [(decN_reads (P := fun _ => True) (fun _ _ _ _ => trivial) _ _ _ _ h2).1]
  exact ((u64_inverse.2 _ _ _).1 h1).1

theorem lookupL_mem {V : Type} {k : ℕ} {v : V} : ∀ {l : List (ℕ × V)}, BMap.lookupL k l = some v → (k, v) ∈ l
  | [], h => by cases h
  | (k', v') :: l, h => by
    rw [BMap.lookupL] at h
    split at h
    · rename_i hk
      obtain rfl := Option.some.inj h
      rw [hk]
      exact List.mem_cons_self
    · exact List.mem_cons_of_mem _ (lookupL_mem h)

theorem bmap_fits {V : Type} (a : Codec V) {l : List UInt8} {m : BMap V} {rest : List UInt8} (h : (bmap a).dec l = .ok (m, rest)) :
    m.entries.length < 2 ^ 64 ∧ ∀ e ∈ m.entries, e.1 < 2 ^ 64 := by
  simp only [bmap] at h
  rw [Res.bind_eq_ok] at h
  obtain ⟨⟨n, l1⟩, h1, h⟩ := h
  simp only at h
  rw [Res.bind_eq_ok] at h
  obtain ⟨⟨kvs, l2⟩, h2, h⟩ := h
  obtain ⟨rfl, -⟩ := Prod.mk.inj (Res.ok.inj h)
  obtain ⟨hn, hk⟩ := decN_reads (P := fun x : ℕ × V => x.1 < 2 ^ 64) (fun l x rest hx => by
    obtain ⟨x, y⟩ := x
    obtain ⟨l', h3, -⟩ := (prod_dec_ok _ _ _ _ _ _).1 hx
    exact ((u64_inverse.2 _ _ _).1 h3).1) _ _ _ _ h2
  have hmem : ∀ e ∈ (BMap.ofList kvs).entries, e ∈ kvs := fun e he => by
    have := (BMap.mem_entries _).1 (show (e.1, e.2) ∈ _ from he)
    rw [BMap.get_ofList] at this
    exact List.mem_reverse.1 (lookupL_mem this)
  have hnd : (BMap.ofList kvs).entries.Nodup := (BMap.ofList kvs).2.imp fun h e => by rw [e] at h; exact lt_irrefl _ h
  have hlen : (BMap.ofList kvs).entries.length ≤ kvs.length := (hnd.subperm fun e he => hmem e he).length_le
  exact ⟨lt_of_le_of_lt (hlen.trans hn.le) ((u64_inverse.2 _ _ _).1 h1).1, fun e he => hk e (hmem e he)⟩

theorem core_fits {l : List UInt8} {c : PVSSCore G1 G2} {rest : List UInt8} (h : (PVSSCore.codec S).dec l = .ok (c, rest)) :
    Spec.CoreFits c := by
  simp only [PVSSCore.codec, iso] at h
  rw [Res.bind_eq_ok] at h
  obtain ⟨⟨⟨x, y⟩, l'⟩, h, he⟩ := h
  obtain ⟨rfl, -⟩ := Prod.mk.inj (Res.ok.inj he)
  obtain ⟨l1, h1, h2⟩ := (prod_dec_ok _ _ _ _ _ _).1 h
  exact ⟨vec_length _ h1, vec_length _ h2⟩

/-- **C123** (what is lost). Where the code reads a participant, share or transcript, its numbers fit in 64 bits, and the strict decoder reads
it too, unless the bytes are not what `serialize` writes for it. -/
theorem C123_refused (h : Spec.PointDecoders S) (hC : CodecLaws S n1 n2 nf) (hf : S.frC.Canonical) (l rest : List UInt8) :
    (∀ x, (Participant.codec S).dec l = .ok (x, rest) → x.id < 2 ^ 64 ∧
      ((Spec.strictParticipant S).dec l = .ok (x, rest) ∨
        l ≠ (Participant.codec S).enc x ++ rest ∧ ∃ e, (Spec.strictParticipant S).dec l = .err e)) ∧
    (∀ x, (PVSSShare.codec S).dec l = .ok (x, rest) → (x.participantId < 2 ^ 64 ∧ Spec.CoreFits x.core) ∧
      ((Spec.strictShare S).dec l = .ok (x, rest) ∨ l ≠ (PVSSShare.codec S).enc x ++ rest ∧ ∃ e, (Spec.strictShare S).dec l = .err e)) ∧
    ∀ x, (AggShare.codec S).dec l = .ok (x, rest) → Spec.AggFits x ∧
      ((Spec.strictAgg S).dec l = .ok (x, rest) ∨ l ≠ (AggShare.codec S).enc x ++ rest ∧ ∃ e, (Spec.strictAgg S).dec l = .err e) := by
  obtain ⟨-, -, hp, -, -, -, hs, ha⟩ := C123 S n1 n2 nf h hC hf
  obtain ⟨-, cp, cs, ca⟩ := C123_compatible S n1 n2 nf h hC hf
  have key : ∀ {α : Type} {a b : Codec α} {P : α → Prop} (_ : Spec.Inverse a P) (_ : ∀ l x, a.dec l = .ok x → b.dec l = .ok x) (x : α),
      P x → b.dec l = .ok (x, rest) → a.dec l = .ok (x, rest) ∨ l ≠ a.enc x ++ rest ∧ ∃ e, a.dec l = .err e := by
    intro α a b P hi hab x hP hx
    by_cases he : l = a.enc x ++ rest
    · exact Or.inl ((hi.2 l x rest).2 ⟨hP, he⟩)
    · refine Or.inr ⟨he, (hi.1 l).resolve_left ?_⟩
      rintro ⟨y, hy⟩
      have h1 := hab l y hy
      rw [hx] at h1
      obtain rfl := Res.ok.inj h1
      exact he ((hi.2 l x rest).1 hy).2
  refine ⟨fun x hx => ?_, fun x hx => ?_, fun x hx => ?_⟩
  · have hP : x.id < 2 ^ 64 := by
      simp only [Participant.codec, iso] at hx
      rw [Res.bind_eq_ok] at hx
      obtain ⟨⟨⟨_, y, z⟩, l'⟩, hx, he⟩ := hx
      obtain ⟨rfl, -⟩ := Prod.mk.inj (Res.ok.inj he)
      obtain ⟨l1, -, h2⟩ := (prod_dec_ok _ _ _ _ _ _).1 hx
      obtain ⟨l2, h3, -⟩ := (prod_dec_ok _ _ _ _ _ _).1 h2
      exact ((u64_inverse.2 _ _ _).1 h3).1
    exact ⟨hP, key hp cp x hP hx⟩
  · have hP : x.participantId < 2 ^ 64 ∧ Spec.CoreFits x.core := by
      simp only [PVSSShare.codec, iso] at hx
      rw [Res.bind_eq_ok] at hx
      obtain ⟨⟨⟨y, c, z⟩, l'⟩, hx, he⟩ := hx
      obtain ⟨rfl, -⟩ := Prod.mk.inj (Res.ok.inj he)
      obtain ⟨l1, h1, h2⟩ := (prod_dec_ok _ _ _ _ _ _).1 hx
      obtain ⟨l2, h3, -⟩ := (prod_dec_ok _ _ _ _ _ _).1 h2
      exact ⟨((u64_inverse.2 _ _ _).1 h1).1, core_fits S h3⟩
    exact ⟨hP, key hs cs x hP hx⟩
  · have hP : Spec.AggFits x := by
      simp only [AggShare.codec, iso] at hx
      rw [Res.bind_eq_ok] at hx
      obtain ⟨⟨⟨y, y', c, z⟩, l'⟩, hx, he⟩ := hx
      obtain ⟨rfl, -⟩ := Prod.mk.inj (Res.ok.inj he)
      obtain ⟨l1, h1, h2⟩ := (prod_dec_ok _ _ _ _ _ _).1 hx
      obtain ⟨l2, h3, h4⟩ := (prod_dec_ok _ _ _ _ _ _).1 h2
      obtain ⟨l3, h5, h6⟩ := (prod_dec_ok _ _ _ _ _ _).1 h4
      exact ⟨((u64_inverse.2 _ _ _).1 h1).1, ((u64_inverse.2 _ _ _).1 h3).1, core_fits S h5, bmap_fits _ h6⟩
    exact ⟨hP, key ha ca x hP hx⟩

/-- **C123** (BLS12-381). All of this holds for the curve the code is used with; of the encodings of infinity only that with `x = 0` is
read. -/
theorem C123_bls {K : Type} [CommMonoid K] [DecidableEq K] (pair : BlsG1 → BlsG2 → K) (stream : List UInt8 → List UInt8 → ℕ → UInt8)
    (shake : List UInt8 → Bytes 32) (ed : EdOps) :
    let S := arkSuite pair stream shake ed
    Spec.Inverse (Spec.strictShare S) (fun s => s.participantId < 2 ^ 64 ∧ Spec.CoreFits s.core) ∧
    Spec.Inverse (Spec.strictAgg S) Spec.AggFits ∧
    ∀ (x : BlsFq2) rest, ((Spec.strictPoints S).c2.codec.dec (wireFq2.enc x 1 ++ rest) = .ok (0, rest) ↔ x = 0) ∧
      (x ≠ 0 → (Spec.strictPoints S).c2.codec.dec (wireFq2.enc x 1 ++ rest) = .err .invalidData) := by
  intro S
  have hC := C96_codec stream shake ed pair
  obtain ⟨-, -, -, -, -, -, hs, ha⟩ := C123 S 48 96 32 (C82_bls pair stream shake ed) hC C96_canonical.2.2
  refine ⟨hs, ha, fun x rest => ?_⟩
  have hd : (Spec.strictPoints S).c2.codec.dec (wireFq2.enc x 1 ++ rest) =
      if x = 0 then .ok (0, rest) else .err .invalidData := by
    have hx : S.c2.codec.dec (wireFq2.enc x 1 ++ rest) = .ok (0, rest) := (C96_infinity 0 x rest).2
    simp only [Spec.strictPoints, Spec.asWritten]
    rw [hx, Res.bind_ok']
    have he : wireFq2.enc x 1 ++ rest = S.c2.codec.enc 0 ++ rest ↔ x = 0 := by
      constructor
      · intro h
        have h : wireFq2.enc x 1 ++ rest = wireFq2.enc 0 1 ++ rest := h
        have h1 := wireFq2_good.dec_enc x 1 rest (by norm_num)
        rw [h, wireFq2_good.dec_enc 0 1 rest (by norm_num)] at h1
        exact (Prod.mk.inj (Res.ok.inj h1)).1.symm
      · rintro rfl
        rfl
    by_cases hx0 : x = 0
    · rw [if_pos hx0]
      exact if_pos (he.2 hx0)
    · rw [if_neg hx0]
      exact if_neg fun h => hx0 (he.1 h)
  rw [hd]
  by_cases hx : x = 0 <;> simp [hx]

/-- Non-vacuity of C123: a transcript is read back; the bytes of C55 that list a contribution twice are read by the code and refused here;
a share without its last byte makes the code panic and is refused here. -/
example : (Spec.strictAgg (Toy.suite 13)).dec ((AggShare.codec (Toy.suite 13)).enc Toy.aggShare) = .ok (Toy.aggShare, []) ∧
    (let l := dupBytes (Toy.suite 13) 1 0 ⟨[0], [0]⟩ 0 (⟨⟨(0, 0, 0), 0⟩, Toy.zeroSig⟩, 1)
     (∃ x, (AggShare.codec (Toy.suite 13)).dec l = .ok x) ∧ ∃ e, (Spec.strictAgg (Toy.suite 13)).dec l = .err e) ∧
    (let s : PVSSShare 13 (ZMod 13) (ZMod 13) := ⟨2, ⟨[1, 2], [3, 4]⟩, ⟨⟨(1, 2, 3), 4⟩, Toy.zeroSig⟩⟩
     let l := ((PVSSShare.codec (Toy.suite 13)).enc s).take (((PVSSShare.codec (Toy.suite 13)).enc s).length - 1)
     (PVSSShare.codec (Toy.suite 13)).dec l = .panic ∧ ∃ e, (Spec.strictShare (Toy.suite 13)).dec l = .err e) := by
  have hC := Toy.codecLaws 13 (by omega)
  have hP := Toy.pointDecoders 13
  have hf : (Toy.suite 13).frC.Canonical := Toy.frCodec_canonical
  obtain ⟨-, -, -, -, -, -, hs, ha⟩ := C123 (Toy.suite 13) 32 32 32 hP hC hf
  refine ⟨(ha.2 _ _ _).2 ⟨⟨by decide, by decide, ⟨by decide, by decide⟩, by decide, by decide⟩, (List.append_nil _).symm⟩, ?_, ?_⟩
  · intro l
    obtain ⟨h1, h2⟩ := C55_dup (Toy.suite 13) 32 32 32 hC 1 0 ⟨[0], [0]⟩ 0 (⟨⟨(0, 0, 0), 0⟩, Toy.zeroSig⟩, 1) (by norm_num) (by norm_num)
      (by simp) (by simp) (by norm_num)
    refine ⟨⟨_, h1⟩, ?_⟩
    rcases ((C123_refused (Toy.suite 13) 32 32 32 hP hC hf l []).2.2 _ h1).2 with h3 | h3
    · exact absurd ((ha.2 _ _ _).1 h3).2 (by rw [List.append_nil]; exact h2)
    · exact h3.2
  · intro s l
    have h1 : (PVSSShare.codec (Toy.suite 13)).dec l = .panic :=
      (C82_truncated (Toy.suite 13) 32 32 32 hP hC).2.1 s 1 (by decide) (by decide) (by decide) (by norm_num) (by norm_num)
    refine ⟨h1, (hs.1 l).resolve_left ?_⟩
    rintro ⟨x, hx⟩
    have := (C123_compatible (Toy.suite 13) 32 32 32 hP hC hf).2.2.1 l x hx
    rw [h1] at this
    cases this

end Verif
