import Verif.Props.Outcome
import Verif.Props.Keys
import Verif.Props.Converge

/-!
# Listed contributions are authentic: C91
-/

open Finset Polynomial

namespace Verif

set_option linter.unusedSectionVars false

variable {r : ℕ} [Fact r.Prime] {G1 G2 K : Type}
  [AddCommGroup G1] [DecidableEq G1] [AddCommGroup G2] [DecidableEq G2] [CommMonoid K] [DecidableEq K]
  [Module (ZMod r) G1] [Module (ZMod r) G2]

/-- The message of the call carries the signed proof `x` for party `i`. -/
def Spec.Carries (i : ℕ) (x : SignedProof r G2) : Op r G1 G2 → Prop
  | .share _ sh => sh.participantId = i ∧ sh.signedProof = x
  | .agg _ ag => ∃ w, ag.contributions.get i = some (x, w)

/-- The bytes whose hash a dealer signs. -/
def Spec.proofBytes (S : Suite r G1 G2 K) (d : DecompProof r G2) : List UInt8 :=
  S.c2.codec.enc d.proof.1 ++ (S.frC.enc d.proof.2.1 ++ S.frC.enc d.proof.2.2) ++ S.c2.codec.enc d.gs

/-- The 64 bytes of a signature. -/
def Spec.sigBytes (s : Signature) : Bytes 64 := Bytes.append32 s.part1 s.part2

/-- Every entry of a merge of two contribution tables is an entry of one of them, up to its weight. -/
theorem get_merge_origin {m : Mode} {a b c : AggShare r G1 G2} (h : a.aggregate m b = .ok c) {i : ℕ}
    {x : SignedProof r G2} {w : UInt64} (hc : c.contributions.get i = some (x, w)) :
    i < a.numParticipants ∧ ((∃ w', a.contributions.get i = some (x, w')) ∨ ∃ w', b.contributions.get i = some (x, w')) := by
  obtain ⟨-, -, -, -, -, h6, h7⟩ := (aggregate_iff m a b c).1 h
  have hi : i < a.numParticipants := by
    by_contra hi
    rw [h7 i (by omega)] at hc
    cases hc
  have h6 := h6 i hi
  rw [hc] at h6
  refine ⟨hi, ?_⟩
  cases ha : a.contributions.get i with
  | none =>
    rw [ha, mergeVal_none_left] at h6
    exact .inr ⟨w, Res.ok.inj h6⟩
  | some u =>
    obtain ⟨y, w1⟩ := u
    cases hb : b.contributions.get i with
    | none =>
      rw [ha, hb, mergeVal_none_right] at h6
      exact .inl ⟨w, Res.ok.inj h6⟩
    | some u =>
      obtain ⟨y2, w2⟩ := u
      rw [ha, hb, mergeVal_some_ok_iff] at h6
      obtain ⟨-, w', -, h⟩ := h6
      injection h with h
      injection h with h1 h2
      subst h1
      exact .inl ⟨w1, rfl⟩

/-- **C91** (origin). Every contribution an aggregator lists was carried, for the same party, by one of the messages delivered to
it, and is signed with the registered key of that party. -/
theorem C91_origin (S : Suite r G1 G2 K) (hS : PairLaws S) (m : Mode) (cfg : Config G1 G2) (ps : BMap (Participant G1))
    (ops : List (Op r G1 G2)) (i : ℕ) (x : SignedProof r G2) (w : UInt64)
    (h : ((Aggregator.new cfg ps).run S m ops).tx.contributions.get i = some (x, w)) :
    (∃ op ∈ ops, Spec.Carries i x op) ∧ i < cfg.numParticipants ∧
    ∃ q, ps.get i = some q ∧ Spec.SignedOk S cfg.srs.g2 q.pkEd x := by
  suffices hs : ∀ (ops : List (Op r G1 G2)) (a : Aggregator r G1 G2), a.config = cfg → a.participants = ps →
      a.tx.numParticipants = cfg.numParticipants → ∀ (P : SignedProof r G2 → Prop),
      (∀ y w, a.tx.contributions.get i = some (y, w) → P y ∧ i < cfg.numParticipants ∧
        ∃ q, ps.get i = some q ∧ Spec.SignedOk S cfg.srs.g2 q.pkEd y) →
      ∀ x w, (a.run S m ops).tx.contributions.get i = some (x, w) →
        (P x ∨ ∃ op ∈ ops, Spec.Carries i x op) ∧ i < cfg.numParticipants ∧
          ∃ q, ps.get i = some q ∧ Spec.SignedOk S cfg.srs.g2 q.pkEd x by
    obtain ⟨h1, h2⟩ := hs ops (Aggregator.new cfg ps) rfl rfl rfl (fun _ => False)
      (fun y w hy => by simp [Aggregator.new, AggShare.empty] at hy) x w h
    exact ⟨h1.resolve_left id, h2⟩
  intro ops
  induction ops with
  | nil =>
    intro a _ _ _ P hP x w hx
    obtain ⟨h1, h2⟩ := hP x w hx
    exact ⟨.inl h1, h2⟩
  | cons op ops ih =>
    intro a hc hp hnum P hP x w hx
    have hx' : ((a.step S m op).2.run S m ops).tx.contributions.get i = some (x, w) := hx
    have key : (a.step S m op).2.config = cfg ∧ (a.step S m op).2.participants = ps ∧
        (a.step S m op).2.tx.numParticipants = cfg.numParticipants ∧
        ∀ y w, (a.step S m op).2.tx.contributions.get i = some (y, w) →
          (P y ∨ Spec.Carries i y op) ∧ i < cfg.numParticipants ∧
            ∃ q, ps.get i = some q ∧ Spec.SignedOk S cfg.srs.g2 q.pkEd y := by
      rcases step_ok_cases S m a op with h4 | ⟨rng, rng', sh, tx, rfl, h3, h5, h6⟩ | ⟨rng, rng', ag, tx, rfl, h3, h5, h6⟩
      · rw [h4]
        exact ⟨hc, hp, hnum, fun y w hy => ⟨.inl (hP y w hy).1, (hP y w hy).2⟩⟩
      · rw [h6]
        have hn := ((aggregate_iff _ _ _ _).1 h5).2.2.2.1
        refine ⟨hc, hp, by rw [← hnum]; exact hn, fun y w hy => ?_⟩
        obtain ⟨hi, ⟨w', k⟩ | ⟨w', k⟩⟩ := get_merge_origin h5 hy
        · exact ⟨.inl (hP y w' k).1, (hP y w' k).2⟩
        · rw [get_ofShare] at k
          split at k
          · rename_i he
            injection k with k
            injection k with k1 k2
            obtain ⟨q, hq, hlt, -, -, -, -, -, hsig⟩ := (shareVerify_iff S hS m a rng rng' sh).1 h3
            subst hc hp he k1
            exact ⟨.inr ⟨rfl, rfl⟩, hlt, q, hq, hsig⟩
          · cases k
      · rw [h6]
        have hn := ((aggregate_iff _ _ _ _).1 h5).2.2.2.1
        refine ⟨hc, hp, by rw [← hnum]; exact hn, fun y w hy => ?_⟩
        obtain ⟨hi, ⟨w', k⟩ | ⟨w', k⟩⟩ := get_merge_origin h5 hy
        · exact ⟨.inl (hP y w' k).1, (hP y w' k).2⟩
        · obtain ⟨-, -, rng1, -, -, hcon, -, -⟩ := (aggregationVerify_iff S hS m a rng rng' ag).1 h3
          obtain ⟨q, hq, hsig⟩ := hcon i y w' k
          subst hc hp
          exact ⟨.inr ⟨w', k⟩, by rw [← hnum]; exact hi, q, hq, hsig⟩
    obtain ⟨k1, k2, k3, k4⟩ := key
    obtain ⟨h1, h2⟩ := ih _ k1 k2 k3 (fun y => P y ∨ Spec.Carries i y op) k4 x w hx'
    refine ⟨?_, h2⟩
    rcases h1 with (h1 | h1) | ⟨op', ho, h1⟩
    · exact .inl h1
    · exact .inr ⟨op, by simp, h1⟩
    · exact .inr ⟨op', by simp [ho], h1⟩

/-- **C91**. If party `i` signed the decomposition proofs in `dealt` and no others, then a contribution listed for it is one of
these proofs, or one of the delivered messages exhibits an EdDSA signature under the party's key on a hash it never signed, or
the contribution's bytes collide under the hash with the bytes of a proof it signed. -/
theorem C91 (S : Suite r G1 G2 K) (hS : PairLaws S) {n1 n2 nf : ℕ} (hC : CodecLaws S n1 n2 nf) (m : Mode)
    (cfg : Config G1 G2) (ps : BMap (Participant G1)) (ops : List (Op r G1 G2)) (i : ℕ) (q : Participant G1)
    (hq : ps.get i = some q) (dealt : Set (DecompProof r G2)) (x : SignedProof r G2) (w : UInt64)
    (h : ((Aggregator.new cfg ps).run S m ops).tx.contributions.get i = some (x, w)) :
    x.decompProof ∈ dealt ∨
    (∃ op ∈ ops, Spec.Carries i x op ∧
      S.ed.verifyStrict q.pkEd.bytes (S.shake (Spec.proofBytes S x.decompProof)).1 (Spec.sigBytes x.signature) = true ∧
      ∀ d ∈ dealt, S.shake (Spec.proofBytes S d) ≠ S.shake (Spec.proofBytes S x.decompProof)) ∨
    ∃ d ∈ dealt, Spec.proofBytes S d ≠ Spec.proofBytes S x.decompProof ∧
      S.shake (Spec.proofBytes S d) = S.shake (Spec.proofBytes S x.decompProof) := by
  obtain ⟨⟨op, ho, hcar⟩, -, q', hq', hsig⟩ := C91_origin S hS m cfg ps ops i x w h
  rw [hq] at hq'
  injection hq' with hq'
  subst hq'
  by_cases hd : ∀ d ∈ dealt, S.shake (Spec.proofBytes S d) ≠ S.shake (Spec.proofBytes S x.decompProof)
  · exact .inr (.inl ⟨op, ho, hcar, hsig.signature, hd⟩)
  · push Not at hd
    obtain ⟨d, hd1, hd2⟩ := hd
    by_cases he : Spec.proofBytes S d = Spec.proofBytes S x.decompProof
    · left
      have : d = x.decompProof := by
        apply (C68 S hC d x.decompProof).2.2.1
        have e1 := (C68 S hC d d).1
        have e2 := (C68 S hC x.decompProof d).1
        rw [e1, e2]
        simpa [Spec.proofBytes, List.append_assoc] using he
      rw [← this]
      exact hd1
    · exact .inr (.inr ⟨d, hd1, he, hd2⟩)

/-- **C91** (the secret). If every honest party dealt once, with the decomposition proof `d i`, and the listed contributions of
honest parties are these (by C91, short of a forgery or a collision), the secret of the transcript is the weighted sum of the
secrets honest parties dealt plus the weighted sum of what the others contributed. -/
theorem C91_secret (S : Suite r G1 G2 K) (hS : PairLaws S) (cfg : Config G1 G2) (ps : BMap (Participant G1))
    (hids : ∀ i q, ps.get i = some q → i < cfg.numParticipants) (hn : cfg.numParticipants ≤ r)
    (h64 : cfg.numParticipants < 2 ^ 64) (ops : List (Op r G1 G2)) (honest : ℕ → Prop) [DecidablePred honest]
    (d : ℕ → DecompProof r G2)
    (hd : ∀ i x w, honest i →
      ((Aggregator.new cfg ps).run S .checked ops).tx.contributions.get i = some (x, w) → x.decompProof = d i) :
    let tx := ((Aggregator.new cfg ps).run S .checked ops).tx
    Spec.InterpolatesTo r cfg.degree tx.core.comms
      (((tx.contributions.entries.filter fun e => honest e.1).map fun e => ((e.2.2.toNat : ℕ) : ZMod r) • (d e.1).gs).sum +
        ((tx.contributions.entries.filter fun e => ¬ honest e.1).map fun e =>
          ((e.2.2.toNat : ℕ) : ZMod r) • e.2.1.decompProof.gs).sum) := by
  intro tx
  have h := (C31 S hS cfg ps hids hn h64 ops).interp
  have he : Spec.weightedGs tx.contributions =
      ((tx.contributions.entries.filter fun e => honest e.1).map fun e => ((e.2.2.toNat : ℕ) : ZMod r) • (d e.1).gs).sum +
        ((tx.contributions.entries.filter fun e => ¬ honest e.1).map fun e =>
          ((e.2.2.toNat : ℕ) : ZMod r) • e.2.1.decompProof.gs).sum := by
    have hd' : ∀ e ∈ tx.contributions.entries, honest e.1 → e.2.1.decompProof = d e.1 := by
      intro e he hh
      exact hd e.1 e.2.1 e.2.2 hh ((BMap.mem_entries _).1 he)
    unfold Spec.weightedGs
    revert hd'
    generalize tx.contributions.entries = l
    intro hd'
    induction l with
    | nil => simp
    | cons e l ih =>
      have ih := ih fun e' h' => hd' e' (by simp [h'])
      by_cases hh : honest e.1
      · simp only [List.map_cons, List.sum_cons, hh, decide_true, List.filter_cons_of_pos, not_true, decide_false,
          Bool.false_eq_true, not_false_eq_true, List.filter_cons_of_neg]
        rw [ih, hd' e (by simp) hh]
        abel
      · simp only [List.map_cons, List.sum_cons, hh, decide_false, Bool.false_eq_true, not_false_eq_true,
          List.filter_cons_of_neg, decide_true, List.filter_cons_of_pos]
        rw [ih]
        abel
  rw [← he]
  exact h

/-- Non-vacuity of C91: after the concrete share the aggregator lists a contribution of party 2, namely the dealt proof. -/
example : ∃ sh : PVSSShare 13 (ZMod 13) (ZMod 13), ∃ rng : Rng 13,
    ((Aggregator.new Toy.cfg Toy.parties).run (Toy.suite 13) .checked [.share rng sh]).tx.contributions.get 2 =
      some (sh.signedProof, 1) := by
  obtain ⟨sh, rng', h, -⟩ := Toy.share52
  have hid := (share_good (Toy.suite 13) Toy.edLaws .checked (Toy.node 2) (Toy.goodDealer 2 (by decide)) _ _ sh h).1
  have h1 := C03_fresh (Toy.suite 13) (Toy.pairLaws 13) Toy.edLaws .checked .checked (Toy.node 2)
    (Toy.goodDealer 2 (by decide)) Toy.rng52 rng' sh h (by decide) (by decide) (Or.inl (by decide)) Toy.rng52
  refine ⟨sh, Toy.rng52, ?_⟩
  obtain ⟨-, -, -, -, -, -, -, -, h2⟩ := C72_share (Toy.suite 13) .checked Toy.agg _ Toy.rng52 sh (Prod.ext h1 rfl)
  rw [hid] at h2
  exact (h2 (by decide)).1 rfl

end Verif
