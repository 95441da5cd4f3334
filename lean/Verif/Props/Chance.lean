import Verif.Props.Deploy
import Verif.Props.Privacy

/-!
# How often a deployment works, and what it hides: C85 (counting), C86
-/

open Finset Polynomial

set_option linter.unusedSectionVars false

namespace Verif

variable {r : ℕ} [Fact r.Prime] {G1 G2 K : Type}
  [AddCommGroup G1] [DecidableEq G1] [AddCommGroup G2] [DecidableEq G2] [CommMonoid K] [DecidableEq K]
  [Module (ZMod r) G1] [Module (ZMod r) G2]

/-- The deployment runs through: every dealer deals, the plan of aggregation succeeds, and every party can decrypt. -/
def Spec.Works (S : Suite r G1 G2 K) (md m : Mode) (cfg : Config G1 G2) (x : Spec.Draws r) (p : Spec.Plan r) : Prop :=
  ∃ shs a, Spec.Dealt S md cfg x shs ∧ p.exec S m (Aggregator.new cfg (Spec.table S cfg x)) shs = .ok a ∧
    ∀ i < cfg.numParticipants, ∃ d,
      (DecryptedShare.generate a.tx.core.encs (Spec.party S cfg x i).skSig i : Res PVSSError _) = .ok d

theorem dealt_nonzero {S : Suite r G1 G2 K} (hH : HashTotal S.hash) {m : Mode} {cfg : Config G1 G2}
    {x : Spec.Draws r} (ht : cfg.degree + 1 < 2 ^ 58) {shs : ℕ → PVSSShare r G1 G2} (h : Spec.Dealt S m cfg x shs)
    (i : ℕ) (hi : i < cfg.numParticipants) : ∃ k ≤ cfg.degree, x.deal i k ≠ 0 := by
  obtain ⟨rng', h⟩ := h i hi
  exact ((C73 S hH m (Spec.nodeOf S cfg x i) (x.deal i) ht).1.1 ⟨_, h⟩).2.2.2.1

theorem works_iff (S : Suite r G1 G2 K) (hS : PairLaws S) (hH : HashTotal S.hash) (hE : EdLaws S.ed) (md m : Mode)
    (cfg : Config G1 G2) (x : Spec.Draws r) (hdeg : cfg.degree + 2 ≤ cfg.numParticipants) (hn : cfg.numParticipants ≤ r)
    (hcap : cfg.numParticipants < 2 ^ 58) (p : Spec.Plan r) (hp : ∀ i ∈ p.leaves, i < cfg.numParticipants)
    (hw : ∀ i, p.leaves.count i < 2 ^ 64) :
    Spec.Works S md m cfg x p ↔
      (∀ i < cfg.numParticipants, x.key i 0 ≠ 0) ∧ ∀ i < cfg.numParticipants, ∃ k ≤ cfg.degree, x.deal i k ≠ 0 := by
  constructor
  · rintro ⟨shs, a, h1, -, h3⟩
    refine ⟨fun i hi => ?_, fun i hi => dealt_nonzero hH (by omega) h1 i hi⟩
    obtain ⟨d, hd⟩ := h3 i hi
    exact (((C05 a.tx.core.encs _ i).2.1 d).1 hd).1
  · rintro ⟨h1, h2⟩
    have hx : Spec.Deployable cfg x := ⟨⟨hdeg, hn, hcap, h2⟩, h1⟩
    obtain ⟨shs, hs⟩ := C85_share S hH hE md cfg x hx.toDealable
    obtain ⟨a, ha, -, d, hd, -⟩ := C85 S hS hE md m cfg x hx shs hs p hp hw
    exact ⟨shs, a, hs, ha, fun i hi => ⟨d i, (hd i hi).1⟩⟩

/-- Draws given by finitely many field elements: the keys `k` and the coefficients `c`; the rest is arbitrary. -/
def Spec.drawsOf {n t : ℕ} (x : Spec.Draws r) (k : Fin n → ZMod r) (c : Fin n → Fin (t + 1) → ZMod r) : Spec.Draws r :=
  ⟨fun i => if h : i < n then Spec.withPrefix (fun _ : Fin 1 => k ⟨i, h⟩) (x.key i) else x.key i, x.seed,
   fun i => if h : i < n then Spec.withPrefix (c ⟨i, h⟩) (x.deal i) else x.deal i⟩

open Classical in
/-- **C85** (counting). Of the `r^n * r^(n(t+1))` draws of keys and coefficients, a deployment runs through for exactly
`(r-1)^n * (r^(t+1) - 1)^n`, whatever the further randomness and the plan. -/
theorem C85_count (S : Suite r G1 G2 K) (hS : PairLaws S) (hH : HashTotal S.hash) (hE : EdLaws S.ed) (md m : Mode)
    (cfg : Config G1 G2) (x : Spec.Draws r) (hdeg : cfg.degree + 2 ≤ cfg.numParticipants) (hn : cfg.numParticipants ≤ r)
    (hcap : cfg.numParticipants < 2 ^ 58) (p : Spec.Plan r) (hp : ∀ i ∈ p.leaves, i < cfg.numParticipants)
    (hw : ∀ i, p.leaves.count i < 2 ^ 64) :
    (univ.filter fun kc : (Fin cfg.numParticipants → ZMod r) × (Fin cfg.numParticipants → Fin (cfg.degree + 1) → ZMod r) =>
      Spec.Works S md m cfg (Spec.drawsOf x kc.1 kc.2) p).card =
    (r - 1) ^ cfg.numParticipants * (r ^ (cfg.degree + 1) - 1) ^ cfg.numParticipants := by
  have hset : (univ.filter fun kc : (Fin cfg.numParticipants → ZMod r) × (Fin cfg.numParticipants → Fin (cfg.degree + 1) → ZMod r) =>
      Spec.Works S md m cfg (Spec.drawsOf x kc.1 kc.2) p) =
      (Fintype.piFinset fun _ => univ.erase (0 : ZMod r)) ×ˢ
        (Fintype.piFinset fun _ => univ.erase (0 : Fin (cfg.degree + 1) → ZMod r)) := by
    ext ⟨k, c⟩
    simp only [mem_filter, mem_univ, true_and, mem_product, Fintype.mem_piFinset, mem_erase, and_true]
    rw [works_iff S hS hH hE md m cfg _ hdeg hn hcap p hp hw]
    have h1 : ∀ i (hi : i < cfg.numParticipants), (Spec.drawsOf x k c).key i 0 = k ⟨i, hi⟩ := by
      intro i hi
      simp [Spec.drawsOf, hi, Spec.withPrefix]
    have h2 : ∀ i (hi : i < cfg.numParticipants) j (hj : j < cfg.degree + 1), (Spec.drawsOf x k c).deal i j = c ⟨i, hi⟩ ⟨j, hj⟩ := by
      intro i hi j hj
      simp [Spec.drawsOf, hi, Spec.withPrefix, hj]
    constructor
    · rintro ⟨g1, g2⟩
      refine ⟨fun i h => ?_, fun i h => ?_⟩
      · exact g1 i i.2 (by rw [h1 i i.2]; exact h)
      · obtain ⟨j, hj, hne⟩ := g2 i i.2
        rw [h2 i i.2 j (by omega)] at hne
        exact hne (congrFun h _)
    · rintro ⟨g1, g2⟩
      refine ⟨fun i hi h => ?_, fun i hi => ?_⟩
      · rw [h1 i hi] at h; exact g1 _ h
      · obtain ⟨j, hj⟩ := Function.ne_iff.1 (g2 ⟨i, hi⟩)
        exact ⟨j, by omega, by rw [h2 i hi j j.2]; exact hj⟩
  rw [hset, card_product, Fintype.card_piFinset, Fintype.card_piFinset]
  simp [card_erase_of_mem, ZMod.card]

/-! ### C86 -/

/-- The draws with those of dealer `h` replaced. -/
def Spec.setDeal (x : Spec.Draws r) (h : ℕ) (rng : Rng r) : Spec.Draws r := { x with deal := Function.update x.deal h rng }

/-- In the deployment with draws `x` the parties in `T` decrypt the values `view` in the share of dealer `h`, and the parties
`ids` reconstruct `s • g1` from the transcript of the plan `p`. -/
def Spec.Leads (S : Suite r G1 G2 K) (md m : Mode) (cfg : Config G1 G2) (p : Spec.Plan r) (ids : List ℕ) (h : ℕ) (T : Finset ℕ)
    (view : ℕ → G1) (s : ZMod r) (x : Spec.Draws r) : Prop :=
  ∃ shs a ds, Spec.Dealt S md cfg x shs ∧
    (∀ i ∈ T, (DecryptedShare.generate (shs h).core.encs (Spec.party S cfg x i).skSig i : Res PVSSError _) = .ok ⟨view i, i⟩) ∧
    p.exec S m (Aggregator.new cfg (Spec.table S cfg x)) shs = .ok a ∧
    List.Forall₂ (fun i d => (DecryptedShare.generate a.tx.core.encs (Spec.party S cfg x i).skSig i : Res PVSSError _) = .ok d)
      ids ds ∧
    lagrangeG1 m (ds.map (·.dec)) (ds.map fun d => Spec.point r d.origin) cfg.degree = .ok (s • cfg.srs.g1)

theorem dealtPoly_eval (cfg : Config G1 G2) (x : Spec.Draws r) (h : ℕ) (c : Fin (cfg.degree + 1) → ZMod r)
    (hc : ∀ k (hk : k < cfg.degree + 1), x.deal h k = c ⟨k, hk⟩) (y : ZMod r) :
    (Spec.dealtPoly cfg x h).eval y = Spec.evalAt c y := by
  unfold Spec.dealtPoly Spec.evalAt
  rw [eval_finsetSum, ← Fin.sum_univ_eq_sum_range (fun k => (monomial k (x.deal h k)).eval y)]
  refine sum_congr rfl fun k _ => ?_
  rw [eval_monomial, hc k k.2]

theorem sum_leaves (l : List ℕ) (h : ℕ) (f : ℕ → ZMod r) (v : ZMod r) :
    (l.map (Function.update f h v)).sum = (l.count h : ZMod r) * v + (l.map (Function.update f h 0)).sum := by
  induction l with
  | nil => simp
  | cons a l ih =>
    rw [List.map_cons, List.sum_cons, ih, List.map_cons, List.sum_cons]
    by_cases ha : a = h
    · subst ha
      rw [List.count_cons_self, Function.update_self, Function.update_self]
      push_cast; ring
    · rw [List.count_cons_of_ne ha, Function.update_of_ne ha, Function.update_of_ne ha]
      ring

theorem leads_iff (S : Suite r G1 G2 K) (hS : PairLaws S) (hH : HashTotal S.hash) (hE : EdLaws S.ed) (md m : Mode)
    (cfg : Config G1 G2) (x : Spec.Draws r) (hdeg : cfg.degree + 2 ≤ cfg.numParticipants) (hn : cfg.numParticipants ≤ r)
    (hcap : cfg.numParticipants < 2 ^ 58) (hkey : ∀ i < cfg.numParticipants, x.key i 0 ≠ 0) (hg1 : cfg.srs.g1 ≠ 0)
    (p : Spec.Plan r) (hp : ∀ i ∈ p.leaves, i < cfg.numParticipants) (hw : ∀ i, p.leaves.count i < 2 ^ 64) (ids : List ℕ)
    (hsel : Spec.Selection cfg.numParticipants cfg.degree ids) (h : ℕ) (hh : h < cfg.numParticipants)
    (hdeal : ∀ i < cfg.numParticipants, i ≠ h → ∃ k ≤ cfg.degree, x.deal i k ≠ 0) (T : Finset ℕ)
    (hT : ∀ i ∈ T, i < cfg.numParticipants) (view : ℕ → G1) (s : ZMod r) (c : Fin (cfg.degree + 1) → ZMod r) (tail : ℕ → ZMod r) :
    Spec.Leads S md m cfg p ids h T view s (Spec.setDeal x h (Spec.withPrefix c tail)) ↔
      c ≠ 0 ∧ (∀ i ∈ T, Spec.evalAt c (Spec.point r i) • cfg.srs.g1 = view i) ∧
      (p.leaves.count h : ZMod r) * Spec.evalAt c 0 +
        (p.leaves.map (Function.update (fun i => x.deal i 0) h 0)).sum = s := by
  set x' := Spec.setDeal x h (Spec.withPrefix c tail) with hx'
  have hxc : ∀ k (hk : k < cfg.degree + 1), x'.deal h k = c ⟨k, hk⟩ := by
    intro k hk
    simp [hx', Spec.setDeal, Spec.withPrefix, hk]
  have hxo : ∀ i, i ≠ h → x'.deal i = x.deal i := fun i hi => by simp [hx', Spec.setDeal, hi]
  have hnz : (∃ k ≤ cfg.degree, x'.deal h k ≠ 0) ↔ c ≠ 0 := by
    rw [Function.ne_iff]
    constructor
    · rintro ⟨k, hk, hne⟩
      exact ⟨⟨k, by omega⟩, by rw [← hxc k (by omega)]; exact hne⟩
    · rintro ⟨k, hk⟩
      exact ⟨k, by omega, by rw [hxc k k.2]; exact hk⟩
  have hsum : (p.leaves.map fun i => x'.deal i 0).sum = (p.leaves.count h : ZMod r) * Spec.evalAt c 0 +
        (p.leaves.map (Function.update (fun i => x.deal i 0) h 0)).sum := by
    rw [← sum_leaves]
    congr 1
    refine List.map_congr_left fun i _ => ?_
    by_cases hi : i = h
    · subst hi
      rw [Function.update_self, ← dealtPoly_eval cfg x' i c hxc, dealtPoly_zero]
    · rw [Function.update_of_ne hi, hxo i hi]
  have core : c ≠ 0 → Spec.Deployable cfg x' := fun hc => ⟨⟨hdeg, hn, hcap, fun i hi => by
    by_cases hih : i = h
    · subst hih; exact hnz.2 hc
    · rw [hxo i hih]; exact hdeal i hi hih⟩, hkey⟩
  have hview : ∀ shs, Spec.Dealt S md cfg x' shs → c ≠ 0 → ∀ i ∈ T,
      (DecryptedShare.generate (shs h).core.encs (Spec.party S cfg x' i).skSig i : Res PVSSError _) =
        .ok ⟨Spec.evalAt c (Spec.point r i) • cfg.srs.g1, i⟩ := by
    intro shs hs hc i hi
    obtain ⟨-, hg⟩ := dealt_good S hE md cfg x' (core hc).toDealable shs hs h hh
    obtain ⟨pk, hpk, hsh⟩ := hg.keys
    have hpki : pk i = x.key i 0 • cfg.srs.g1 := by
      obtain ⟨q, hq, hq2⟩ := hpk i (hT i hi)
      rw [table_get S cfg x' i (hT i hi)] at hq
      rw [← hq2, ← Option.some.inj hq, party_pk]
      rfl
    refine ((C05 _ _ i).2.1 _).2 ⟨hkey i (hT i hi), rfl, ?_⟩
    have hi' : i < (shs h).core.encs.length := by rw [hsh.encs_length]; exact hT i hi
    rw [List.getElem?_eq_getElem hi', hsh.enc i hi', hpki, dealtPoly_eval cfg x' h c hxc, smul_comm]
    rfl
  have hrec : ∀ shs, Spec.Dealt S md cfg x' shs → c ≠ 0 → ∃ a ds,
      p.exec S m (Aggregator.new cfg (Spec.table S cfg x')) shs = .ok a ∧
      List.Forall₂ (fun i d => (DecryptedShare.generate a.tx.core.encs (Spec.party S cfg x' i).skSig i : Res PVSSError _) = .ok d)
        ids ds ∧
      lagrangeG1 m (ds.map (·.dec)) (ds.map fun d => Spec.point r d.origin) cfg.degree =
        .ok ((p.leaves.map fun i => x'.deal i 0).sum • cfg.srs.g1) := by
    intro shs hs hc
    obtain ⟨a, ha, -, d, hd, hr⟩ := C85 S hS hE md m cfg x' (core hc) shs hs p hp hw
    refine ⟨a, ids.map d, ha, ?_, ?_⟩
    · rw [List.forall₂_map_right_iff, List.forall₂_same]
      exact fun i hi => (hd i (hsel.lt i hi)).1
    · have := (hr ids hsel).1
      rw [List.map_map, List.map_map]
      have ho : ids.map ((fun d : DecryptedShare G1 => Spec.point r d.origin) ∘ d) = ids.map (Spec.point r) :=
        List.map_congr_left fun i hi => by
          show Spec.point r (d i).origin = _
          rw [(((C05 a.tx.core.encs _ i).2.1 _).1 (hd i (hsel.lt i hi)).1).2.1]
      rw [ho]
      exact this
  constructor
  · rintro ⟨shs, a, ds, h1, h2, h3, h4, h5⟩
    have hc : c ≠ 0 := hnz.1 (dealt_nonzero hH (by omega) h1 h hh)
    refine ⟨hc, fun i hi => ?_, ?_⟩
    · have := h2 i hi
      rw [hview shs h1 hc i hi] at this
      exact (DecryptedShare.mk.inj (Res.ok.inj this)).1
    · obtain ⟨a', ds', g3, g4, g5⟩ := hrec shs h1 hc
      rw [h3] at g3
      obtain rfl := Res.ok.inj g3
      have hds : ds = ds' := by
        have : ∀ {ids : List ℕ} {ds ds' : List (DecryptedShare G1)},
            List.Forall₂ (fun i d => (DecryptedShare.generate a.tx.core.encs (Spec.party S cfg x' i).skSig i : Res PVSSError _) = .ok d) ids ds →
            List.Forall₂ (fun i d => (DecryptedShare.generate a.tx.core.encs (Spec.party S cfg x' i).skSig i : Res PVSSError _) = .ok d) ids ds' →
            ds = ds' := by
          intro ids
          induction ids with
          | nil => intro ds ds' k k'; cases k; cases k'; rfl
          | cons i ids ih =>
            intro ds ds' k k'
            cases k with
            | cons k1 k2 =>
              cases k' with
              | cons k1' k2' =>
                rw [k1] at k1'
                rw [Res.ok.inj k1', ih k2 k2']
        exact this h4 g4
      rw [← hds, h5] at g5
      rw [← hsum]
      exact (smul_left_injective (ZMod r) hg1 (Res.ok.inj g5)).symm
  · rintro ⟨hc, h2, h3⟩
    obtain ⟨shs, hs⟩ := C85_share S hH hE md cfg x' (core hc).toDealable
    obtain ⟨a, ds, g3, g4, g5⟩ := hrec shs hs hc
    refine ⟨shs, a, ds, hs, fun i hi => ?_, g3, g4, ?_⟩
    · rw [hview shs hs hc i hi, h2 i hi]
    · rw [g5, hsum, h3]

open Classical in
/-- **C86**. One honest dealer suffices: fix the keys and the draws of all other dealers, a plan in which dealer `h` has a weight
that is not a multiple of `r`, and what any at most `t` parties decrypt in the share of `h`. Then the number of draws of `h` that
produce this view and make the parties `ids` reconstruct `s • g1` from the transcript is the same for all `s`, except that the
draw of the zero polynomial, on which dealing panics, is missing when the whole view is zero. -/
theorem C86 (S : Suite r G1 G2 K) (hS : PairLaws S) (hH : HashTotal S.hash) (hE : EdLaws S.ed) (md m : Mode)
    (cfg : Config G1 G2) (x : Spec.Draws r) (hdeg : cfg.degree + 2 ≤ cfg.numParticipants) (hn : cfg.numParticipants < r)
    (hcap : cfg.numParticipants < 2 ^ 58) (hkey : ∀ i < cfg.numParticipants, x.key i 0 ≠ 0) (hg1 : cfg.srs.g1 ≠ 0)
    (p : Spec.Plan r) (hp : ∀ i ∈ p.leaves, i < cfg.numParticipants) (hw : ∀ i, p.leaves.count i < 2 ^ 64) (ids : List ℕ)
    (hsel : Spec.Selection cfg.numParticipants cfg.degree ids) (h : ℕ) (hh : h < cfg.numParticipants)
    (hdeal : ∀ i < cfg.numParticipants, i ≠ h → ∃ k ≤ cfg.degree, x.deal i k ≠ 0)
    (hweight : (p.leaves.count h : ZMod r) ≠ 0) (T : Finset ℕ) (hT : ∀ i ∈ T, i < cfg.numParticipants)
    (hcard : T.card ≤ cfg.degree) (view : ℕ → G1) (tail : ℕ → ZMod r) (s s' : ZMod r)
    (hne : (∃ i ∈ T, view i ≠ 0) ∨ (let others := (p.leaves.map (Function.update (fun i => x.deal i 0) h 0)).sum
      s ≠ others ∧ s' ≠ others)) :
    (univ.filter fun c : Fin (cfg.degree + 1) → ZMod r =>
      Spec.Leads S md m cfg p ids h T view s (Spec.setDeal x h (Spec.withPrefix c tail))).card =
    (univ.filter fun c : Fin (cfg.degree + 1) → ZMod r =>
      Spec.Leads S md m cfg p ids h T view s' (Spec.setDeal x h (Spec.withPrefix c tail))).card := by
  set others := (p.leaves.map (Function.update (fun i => x.deal i 0) h 0)).sum with ho
  set w := (p.leaves.count h : ZMod r) with hwd
  have key : ∀ s, ((∃ i ∈ T, view i ≠ 0) ∨ s ≠ others) →
      (univ.filter fun c : Fin (cfg.degree + 1) → ZMod r =>
        Spec.Leads S md m cfg p ids h T view s (Spec.setDeal x h (Spec.withPrefix c tail))) =
      univ.filter fun c : Fin (cfg.degree + 1) → ZMod r =>
        Spec.evalAt c 0 = w⁻¹ * (s - others) ∧ ∀ i ∈ T, Spec.evalAt c (Spec.point r i) • cfg.srs.g1 = view i := by
    intro s hs
    refine filter_congr fun c _ => ?_
    rw [leads_iff S hS hH hE md m cfg x hdeg hn.le hcap hkey hg1 p hp hw ids hsel h hh hdeal T hT view s c tail]
    have heq : w * Spec.evalAt c 0 + others = s ↔ Spec.evalAt c 0 = w⁻¹ * (s - others) := by
      constructor
      · rintro rfl; field_simp; ring
      · intro hc; rw [hc]; field_simp; ring
    rw [← ho, ← hwd, heq]
    constructor
    · rintro ⟨-, h2, h3⟩; exact ⟨h3, h2⟩
    · rintro ⟨h3, h2⟩
      refine ⟨?_, h2, h3⟩
      rintro rfl
      rcases hs with ⟨i, hi, hv⟩ | hs
      · apply hv; rw [← h2 i hi]; simp [Spec.evalAt]
      · have h0 : w⁻¹ * (s - others) = 0 := by rw [← h3]; simp [Spec.evalAt]
        rcases mul_eq_zero.1 h0 with h0 | h0
        · exact inv_ne_zero hweight h0
        · exact hs (sub_eq_zero.1 h0)
  rw [key s (hne.imp id fun h => h.1), key s' (hne.imp id fun h => h.2)]
  exact C59 hn T hT hcard cfg.srs.g1 view _ _

/-! ### Examples -/

theorem Toy.planA_leaves (ρ : Rng 13) : (Toy.planA ρ).leaves = [0, 1, 2, 3] := rfl

theorem Toy.planA_lt (ρ : Rng 13) : ∀ i ∈ (Toy.planA ρ).leaves, i < Toy.cfg.numParticipants := by
  rw [Toy.planA_leaves]; decide

theorem Toy.planA_count (ρ : Rng 13) : ∀ i, (Toy.planA ρ).leaves.count i < 2 ^ 64 := fun i =>
  lt_of_le_of_lt List.count_le_length (by rw [Toy.planA_leaves]; decide)

open Classical in
/-- Non-vacuity of C85_count: four parties with threshold 1 over the field with 13 elements. -/
example (ρ : Rng 13) : (univ.filter fun kc : (Fin 4 → ZMod 13) × (Fin 4 → Fin 2 → ZMod 13) =>
    Spec.Works (Toy.suite 13) .checked .checked Toy.cfg (Spec.drawsOf Toy.draws kc.1 kc.2) (Toy.planA ρ)).card =
    12 ^ 4 * 168 ^ 4 :=
  C85_count (Toy.suite 13) (Toy.pairLaws 13) (Toy.hashTotal 13) Toy.edLaws .checked .checked Toy.cfg Toy.draws (by decide)
    (by decide) (by decide) (Toy.planA ρ) (Toy.planA_lt ρ) (Toy.planA_count ρ)

theorem Toy.selection13 : Spec.Selection Toy.cfg.numParticipants Toy.cfg.degree [1, 3] :=
  ⟨by decide, by decide, by decide, by decide⟩

/-- Non-vacuity of C86: party 1 sees the value 1 in the share of dealer 2; the draw (3, 12) of dealer 2 produces this view and the
total secret 10. -/
example (ρ : Rng 13) : Spec.Leads (Toy.suite 13) .checked .checked Toy.cfg (Toy.planA ρ) [1, 3] 2 {1} (fun _ => (1 : ZMod 13)) 10
    (Spec.setDeal Toy.draws 2 (Spec.withPrefix (![3, 12] : Fin 2 → ZMod 13) fun _ => 0)) :=
  (leads_iff (Toy.suite 13) (Toy.pairLaws 13) (Toy.hashTotal 13) Toy.edLaws .checked .checked Toy.cfg Toy.draws
    Toy.deployable.deg Toy.deployable.n_le Toy.deployable.cap Toy.deployable.key (by decide) (Toy.planA ρ) (Toy.planA_lt ρ)
    (Toy.planA_count ρ) [1, 3] Toy.selection13 2 (by decide) (fun i hi _ => Toy.deployable.deal i hi) {1} (by decide)
    (fun _ => 1) 10 ![3, 12] (fun _ => 0)).2 ⟨by decide, by decide, by rw [Toy.planA_leaves]; decide⟩

open Classical in
example (ρ : Rng 13) (s : ZMod 13) :
    (univ.filter fun c : Fin 2 → ZMod 13 => Spec.Leads (Toy.suite 13) .checked .checked Toy.cfg (Toy.planA ρ) [1, 3] 2 {1}
      (fun _ => (1 : ZMod 13)) s (Spec.setDeal Toy.draws 2 (Spec.withPrefix c fun _ => 0))).card =
    (univ.filter fun c : Fin 2 → ZMod 13 => Spec.Leads (Toy.suite 13) .checked .checked Toy.cfg (Toy.planA ρ) [1, 3] 2 {1}
      (fun _ => (1 : ZMod 13)) 10 (Spec.setDeal Toy.draws 2 (Spec.withPrefix c fun _ => 0))).card :=
  C86 (Toy.suite 13) (Toy.pairLaws 13) (Toy.hashTotal 13) Toy.edLaws .checked .checked Toy.cfg Toy.draws
    Toy.deployable.deg (by decide) Toy.deployable.cap Toy.deployable.key (by decide) (Toy.planA ρ) (Toy.planA_lt ρ)
    (Toy.planA_count ρ) [1, 3] Toy.selection13 2 (by decide) (fun i hi _ => Toy.deployable.deal i hi)
    (by rw [Toy.planA_leaves]; decide) {1} (by decide) (by decide) (fun _ => 1) (fun _ => 0) s 10 (Or.inl ⟨1, by decide, by decide⟩)

end Verif
