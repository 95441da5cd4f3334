import Verif.Model.Pvss
import Verif.Lemmas.BMap
import Verif.Lemmas.Basic
import Verif.Model.Laws

/-! Round trips of the wire codecs. -/

namespace Verif.Codec

variable {α β γ V : Type}

/-- Round trip for the values satisfying `P`. -/
def LawfulOn (a : Codec α) (P : α → Prop) : Prop := ∀ x, P x → ∀ rest, a.dec (a.enc x ++ rest) = .ok (x, rest)

theorem Lawful.on {a : Codec α} (h : a.Lawful) (P : α → Prop) : a.LawfulOn P := fun x _ rest => h x rest

/-- A lawful encoding is prefix-free and injective. -/
theorem LawfulOn.append_inj {a : Codec α} {P : α → Prop} (h : a.LawfulOn P) {x y : α} (hx : P x) (hy : P y)
    {s t : List UInt8} (he : a.enc x ++ s = a.enc y ++ t) : x = y ∧ s = t := by
  have h1 := h x hx s
  rw [he, h y hy t] at h1
  cases h1
  exact ⟨rfl, rfl⟩

theorem Lawful.append_inj {a : Codec α} (h : a.Lawful) {x y : α} {s t : List UInt8}
    (he : a.enc x ++ s = a.enc y ++ t) : x = y ∧ s = t :=
  (h.on fun _ => True).append_inj trivial trivial he

theorem Lawful.inj {a : Codec α} (h : a.Lawful) {x y : α} (he : a.enc x = a.enc y) : x = y :=
  (h.append_inj (s := []) (t := []) (by rw [he])).1

@[simp] theorem length_leBytes (n x : ℕ) : (leBytes n x).length = n := by
  induction n generalizing x with
  | zero => rfl
  | succ n ih => simp [leBytes, ih]

theorem leVal_leBytes (n x : ℕ) (h : x < 256 ^ n) : leVal (leBytes n x) = x := by
  induction n generalizing x with
  | zero => simp at h; subst h; rfl
  | succ n ih =>
    rw [leBytes, leVal, ih (x / 256) (by rw [pow_succ] at h; omega)]
    rw [UInt8.toNat_ofNat']
    omega

theorem leVal_lt (l : List UInt8) : leVal l < 256 ^ l.length := by
  induction l with
  | nil => simp [leVal]
  | cons b l ih =>
    rw [leVal, List.length_cons, pow_succ]
    have := b.toNat_lt
    omega

theorem leBytes_leVal (l : List UInt8) : leBytes l.length (leVal l) = l := by
  induction l with
  | nil => rfl
  | cons b l ih =>
    have := b.toNat_lt
    rw [List.length_cons, leBytes, leVal]
    rw [show (b.toNat + 256 * leVal l) / 256 = leVal l by omega, ih,
      show (b.toNat + 256 * leVal l) % 256 = b.toNat by omega]
    simp

theorem u64_lawful : u64.LawfulOn (· < 2 ^ 64) := by
  intro x hx rest
  simp only [u64]
  rw [if_neg (by simp), List.take_left' (by simp), List.drop_left' (by simp), leVal_leBytes _ _ (by omega)]

theorem weight_lawful : weight.Lawful := by
  intro x rest
  simp only [weight]
  have hx : x.toNat < 2 ^ 64 := x.toNat_lt
  rw [if_neg (by simp), List.take_left' (by simp), List.drop_left' (by simp),
    leVal_leBytes _ _ (by omega), UInt64.ofNat_toNat]

theorem prod_lawful {a : Codec α} {b : Codec β} {P : α → Prop} {Q : β → Prop} (ha : a.LawfulOn P)
    (hb : b.LawfulOn Q) : (prod a b).LawfulOn fun x => P x.1 ∧ Q x.2 := by
  rintro ⟨x, y⟩ ⟨hx, hy⟩ rest
  simp only [prod, List.append_assoc]
  rw [ha x hx, Res.bind_ok']
  simp only
  rw [hb y hy, Res.bind_ok']

theorem phantom_lawful : phantom.Lawful := fun _ _ => rfl

theorem iso_lawful {a : Codec α} {mk : α → β} {un : β → α} {P : α → Prop} (ha : a.LawfulOn P)
    (h : ∀ x, mk (un x) = x) : (a.iso mk un).LawfulOn fun x => P (un x) := by
  intro x hx rest
  simp only [iso]
  rw [ha _ hx, Res.bind_ok']
  simp [h]

theorem decN_lawful {a : Codec α} {P : α → Prop} (ha : a.LawfulOn P) (xs : List α) (hx : ∀ x ∈ xs, P x)
    (rest : List UInt8) : decN a xs.length ((xs.map a.enc).flatten ++ rest) = .ok (xs, rest) := by
  induction xs with
  | nil => rfl
  | cons x xs ih =>
    rw [List.length_cons, decN, List.map_cons, List.flatten_cons, List.append_assoc, ha x (hx x (by simp)), Res.bind_ok']
    simp only
    rw [ih fun y hy => hx y (by simp [hy]), Res.bind_ok']

theorem vec_lawful {a : Codec α} {P : α → Prop} (ha : a.LawfulOn P) :
    (vec a).LawfulOn fun xs => xs.length < 2 ^ 64 ∧ ∀ x ∈ xs, P x := by
  rintro xs ⟨hl, hx⟩ rest
  simp only [vec]
  rw [List.append_assoc, u64_lawful _ hl, Res.bind_ok']
  exact decN_lawful ha xs hx rest

theorem bmap_lawful {a : Codec V} {P : V → Prop} (ha : a.LawfulOn P) :
    (bmap a).LawfulOn fun m => m.entries.length < 2 ^ 64 ∧ ∀ e ∈ m.entries, e.1 < 2 ^ 64 ∧ P e.2 := by
  rintro m ⟨hl, hx⟩ rest
  simp only [bmap]
  rw [List.append_assoc, u64_lawful _ hl, Res.bind_ok']
  simp only
  rw [decN_lawful (prod_lawful u64_lawful ha) m.entries hx rest, Res.bind_ok']
  simp only [BMap.ofList_entries]

theorem LawfulOn.mono {a : Codec α} {P Q : α → Prop} (h : a.LawfulOn P) (hPQ : ∀ x, Q x → P x) : a.LawfulOn Q :=
  fun x hx => h x (hPQ x hx)

theorem LawfulOn.lawful {a : Codec α} {P : α → Prop} (h : a.LawfulOn P) (hP : ∀ x, P x) : a.Lawful :=
  fun x => h x (hP x)

/-! ### EdDSA byte arrays -/

theorem flatten_u8 (l : List UInt8) : (l.map u8.enc).flatten = l := by
  induction l with
  | nil => rfl
  | cons b l ih => rw [List.map_cons, List.flatten_cons, ih]; rfl

theorem readBytes_append {n : ℕ} (b : Bytes n) (rest : List UInt8) : readBytes n (b.1 ++ rest) = .ok (b, rest) := by
  unfold readBytes
  rw [dif_pos (by simp [b.2])]
  congr 2
  · apply Subtype.ext
    simp only
    rw [List.take_left' b.2]
  · rw [List.drop_left' b.2]

theorem digest_lawful : Digest.codec.Lawful := by
  intro x rest
  simp only [Digest.codec, flatten_u8]
  rw [readBytes_append, Res.bind_ok']

theorem publicKey_lawful : PublicKey.codec.Lawful := by
  intro x rest
  simp only [PublicKey.codec, flatten_u8]
  rw [readBytes_append, Res.bind_ok']

theorem secretKey_lawful : SecretKey.codec.Lawful := by
  intro x rest
  simp only [SecretKey.codec, flatten_u8]
  rw [readBytes_append, Res.bind_ok']

theorem signature_lawful : Signature.codec.Lawful := by
  intro x rest
  simp only [Signature.codec, flatten_u8]
  have := readBytes_append (Bytes.append32 x.part1 x.part2) rest
  simp only [Bytes.append32] at this
  rw [this, Res.bind_ok']
  obtain ⟨⟨a, ha⟩, ⟨b, hb⟩⟩ := x
  have h1 : List.take 32 (a ++ b) = a := List.take_left' ha
  have h2 : List.drop 32 (List.take 64 (a ++ b)) = b := by
    rw [List.take_of_length_le (by simp [ha, hb]), List.drop_left' ha]
  simp only [h1, h2]

end Verif.Codec

namespace Verif
open Codec

set_option linter.unusedSectionVars false

variable {r : ℕ} [Fact r.Prime] {G1 G2 K : Type}
  [AddCommGroup G1] [DecidableEq G1] [AddCommGroup G2] [DecidableEq G2]
  {S : Suite r G1 G2 K} {n1 n2 nf : ℕ}

theorem proofCodec_lawful (h : CodecLaws S n1 n2 nf) : (proofCodec S).Lawful :=
  (prod_lawful (h.c2.on fun _ => True) (prod_lawful (h.fr.on fun _ => True) (h.fr.on fun _ => True))).lawful
    fun _ => ⟨trivial, trivial, trivial⟩

theorem decompProof_lawful (h : CodecLaws S n1 n2 nf) : (DecompProof.codec S).Lawful :=
  (iso_lawful (prod_lawful ((proofCodec_lawful h).on fun _ => True) (h.c2.on fun _ => True)) fun _ => rfl).lawful
    fun _ => ⟨trivial, trivial⟩

theorem signedProof_lawful (h : CodecLaws S n1 n2 nf) : (SignedProof.codec S).Lawful :=
  (iso_lawful (prod_lawful ((decompProof_lawful h).on fun _ => True) (signature_lawful.on fun _ => True))
    fun _ => rfl).lawful fun _ => ⟨trivial, trivial⟩

theorem srs_lawful (h : CodecLaws S n1 n2 nf) : (SRS.codec S).Lawful :=
  (iso_lawful (prod_lawful (h.c1.on fun _ => True) (prod_lawful (h.c2.on fun _ => True) (h.c2.on fun _ => True)))
    fun _ => rfl).lawful fun _ => ⟨trivial, trivial, trivial⟩

theorem config_lawful (h : CodecLaws S n1 n2 nf) :
    (Config.codec S).LawfulOn fun c => c.degree < 2 ^ 64 ∧ c.numParticipants < 2 ^ 64 :=
  (iso_lawful (prod_lawful ((srs_lawful h).on fun _ => True) (prod_lawful u64_lawful u64_lawful))
    fun _ => rfl).mono fun _ hx => ⟨trivial, hx⟩

theorem participant_lawful (h : CodecLaws S n1 n2 nf) : (Participant.codec S).LawfulOn fun p => p.id < 2 ^ 64 :=
  (iso_lawful (prod_lawful (phantom_lawful.on fun _ => True) (prod_lawful u64_lawful
    (prod_lawful (h.c1.on fun _ => True) (publicKey_lawful.on fun _ => True)))) fun _ => rfl).mono
    fun _ hx => ⟨trivial, hx, trivial, trivial⟩

theorem core_lawful (h : CodecLaws S n1 n2 nf) :
    (PVSSCore.codec S).LawfulOn fun c => c.encs.length < 2 ^ 64 ∧ c.comms.length < 2 ^ 64 :=
  (iso_lawful (prod_lawful (vec_lawful (h.c1.on fun _ => True)) (vec_lawful (h.c2.on fun _ => True)))
    fun _ => rfl).mono fun _ hx => ⟨⟨hx.1, fun _ _ => trivial⟩, hx.2, fun _ _ => trivial⟩

theorem pvssShare_lawful (h : CodecLaws S n1 n2 nf) : (PVSSShare.codec S).LawfulOn fun s =>
    s.participantId < 2 ^ 64 ∧ s.core.encs.length < 2 ^ 64 ∧ s.core.comms.length < 2 ^ 64 :=
  (iso_lawful (prod_lawful u64_lawful (prod_lawful (core_lawful h) ((signedProof_lawful h).on fun _ => True)))
    fun _ => rfl).mono fun _ hx => ⟨hx.1, hx.2, trivial⟩

theorem aggShare_lawful (h : CodecLaws S n1 n2 nf) : (AggShare.codec S).LawfulOn fun a =>
    a.numParticipants < 2 ^ 64 ∧ a.degree < 2 ^ 64 ∧ a.core.encs.length < 2 ^ 64 ∧ a.core.comms.length < 2 ^ 64 ∧
    a.contributions.entries.length < 2 ^ 64 ∧ ∀ e ∈ a.contributions.entries, e.1 < 2 ^ 64 :=
  (iso_lawful (prod_lawful u64_lawful (prod_lawful u64_lawful (prod_lawful (core_lawful h)
    (bmap_lawful (prod_lawful ((signedProof_lawful h).on fun _ => True) (weight_lawful.on fun _ => True))))))
    fun _ => rfl).mono fun _ hx => ⟨hx.1, hx.2.1, ⟨hx.2.2.1, hx.2.2.2.1⟩, hx.2.2.2.2.1,
      fun e he => ⟨hx.2.2.2.2.2 e he, trivial, trivial⟩⟩

end Verif
