import Verif.Props.Rand
import Verif.Props.Chance
import Verif.Props.Adversary
import Verif.Props.TestsNode

/-!
# Error probabilities with the real generator at BLS12-381 (C104)

The theorems on the degree test, batch verification, deployments, secrecy and the repository's tests count scalars.  Here the scalars
are drawn by `Scalar::rand` from uniform 32-bit words, and the counts become probabilities of the programs.
-/

open scoped ENNReal
open Finset

set_option linter.unusedSectionVars false

namespace Verif

open Sampler

variable {G1 G2 K : Type} [AddCommGroup G1] [DecidableEq G1] [AddCommGroup G2] [DecidableEq G2] [CommMonoid K] [DecidableEq K]
  [Module (ZMod blsR) G1] [Module (ZMod blsR) G2] {G : Type} [AddCommGroup G] [DecidableEq G] [Module (ZMod blsR) G]

/-- The generator that yields the scalars `cs` and then those of `tail`. -/
def Spec.tape {r : ℕ} (cs : List (ZMod r)) (tail : Rng r) : Rng r := fun i => cs.getD i (tail i)

theorem tape_ofFn {r N : ℕ} (c : Fin N → ZMod r) (tail : Rng r) : Spec.tape (List.ofFn c) tail = Spec.withPrefix c tail := by
  funext i
  unfold Spec.tape Spec.withPrefix
  rw [List.getD_eq_getElem?_getD, List.getElem?_ofFn]
  split <;> rfl

theorem frRand_uniform : UniformVia frRand (id : ZMod blsR → ZMod blsR) :=
  ⟨C103_scalar.1, fun _ _ h => h, fun x => by rw [ZMod.card]; exact C103_scalar.2.2 x, fun a h => absurd rfl (h a)⟩

theorem draws_uniform (n : ℕ) : UniformVia (times frRand n) (List.ofFn : (Fin n → ZMod blsR) → List (ZMod blsR)) :=
  frRand_uniform.times n

theorem rows_uniform (k n : ℕ) : UniformVia (times (times frRand n) k)
    (fun c : Fin k → Fin n → ZMod blsR => List.ofFn fun i => List.ofFn (c i)) :=
  (draws_uniform n).times k

theorem bls_small {n : ℕ} (h : n < 2 ^ 58) : n < blsR := lt_trans h (by decide +kernel)

theorem ratio_le {a b k q : ℕ} (hb : b ≠ 0) (hq : q ≠ 0) (h : a * q ≤ k * b) : (a : ℝ≥0∞) / b ≤ k * (q : ℝ≥0∞)⁻¹ := by
  rw [ENNReal.div_le_iff (Nat.cast_ne_zero.2 hb) (ENNReal.natCast_ne_top _), mul_right_comm, ← div_eq_mul_inv,
    ENNReal.le_div_iff_mul_le (.inl (Nat.cast_ne_zero.2 hq)) (.inl (ENNReal.natCast_ne_top _))]
  exact_mod_cast h

theorem card_mono {X : Type} [Fintype X] {p q : X → Prop} {_ : DecidablePred p} {_ : DecidablePred q} (h : ∀ x, p x → q x) :
    (univ.filter p).card ≤ (univ.filter q).card :=
  card_le_card fun x hx => mem_filter.2 ⟨mem_univ _, h x (mem_filter.1 hx).2⟩

theorem blsR_ne : blsR ≠ 0 := by decide +kernel

/-! ### the degree test -/

/-- **C104** (degree test). A vector that is not a codeword passes with probability at most `1 / r`. -/
theorem C104_degree (m : Mode) (t : ℕ) (comms : List G) (hc : ¬ Spec.Codeword blsR t comms) (ht : t + 2 ≤ comms.length)
    (hcap : comms.length < 2 ^ 58) (tail : Rng blsR) :
    chance (times frRand (comms.length - t - 1)) (fun cs => (ensureDegree m (Spec.tape cs tail) comms t).isOk) ≤
      (blsR : ℝ≥0∞)⁻¹ := by
  classical
  refine le_trans ?_ (le_of_eq (by rw [Nat.cast_one, one_mul] : ((1 : ℕ) : ℝ≥0∞) * (blsR : ℝ≥0∞)⁻¹ = _))
  rw [(draws_uniform _).chance_eq]
  refine ratio_le Fintype.card_ne_zero blsR_ne ?_
  rw [one_mul]
  refine le_trans (Nat.mul_le_mul_right _ (card_mono fun c hc => ?_)) (C13 m t comms hc ht (bls_small hcap).le hcap tail).1
  rw [← tape_ofFn]
  exact hc

/-- The calls of an adversary in `cs.length` steps: in step `i` the aggregator's generator yields `cs[i]`, and the message is chosen
knowing the scalars of the earlier steps. -/
def Spec.assault {r : ℕ} [Fact r.Prime] (adv : List (List (ZMod r)) → PVSSShare r G1 G2 ⊕ AggShare r G1 G2) (tail : ℕ → Rng r)
    (cs : List (List (ZMod r))) : List (Op r G1 G2) :=
  cs.mapIdx fun i c => match adv (cs.take i) with
    | .inl sh => .share (Spec.tape c (tail i)) sh
    | .inr ag => .agg (Spec.tape c (tail i)) ag

theorem assault_ofFn {r k L : ℕ} [Fact r.Prime] (adv : List (List (ZMod r)) → PVSSShare r G1 G2 ⊕ AggShare r G1 G2)
    (tail : ℕ → Rng r) (c : Fin k → Fin L → ZMod r) :
    Spec.assault adv tail (List.ofFn fun i => List.ofFn (c i)) = Spec.attack (fun l => adv (l.map List.ofFn)) tail c := by
  unfold Spec.assault Spec.attack
  refine List.ext_getElem (by simp) fun i h1 h2 => ?_
  simp only [List.getElem_mapIdx, List.getElem_ofFn, tape_ofFn, List.map_take, List.map_ofFn, Function.comp_def]
  cases adv (List.take i (List.ofFn fun i => List.ofFn (c i))) <;> rfl

/-- **C104** (adaptive adversaries). After `k` calls chosen by any adversary that sees all earlier draws, the commitments of the
transcript fail to be a codeword with probability at most `k / r`. -/
theorem C104_attack (S : Suite blsR G1 G2 K) (hS : PairLaws S) (m : Mode) (cfg : Config G1 G2) (ps : BMap (Participant G1))
    (ht : cfg.degree + 2 ≤ cfg.numParticipants) (hcap : cfg.numParticipants < 2 ^ 58) (k : ℕ)
    (adv : List (List (ZMod blsR)) → PVSSShare blsR G1 G2 ⊕ AggShare blsR G1 G2) (tail : ℕ → Rng blsR) :
    chance (times (times frRand (cfg.numParticipants - cfg.degree - 1)) k) (fun cs =>
      ¬ Spec.Codeword blsR cfg.degree ((Aggregator.new cfg ps).run S m (Spec.assault adv tail cs)).tx.core.comms) ≤
      k * (blsR : ℝ≥0∞)⁻¹ := by
  classical
  rw [(rows_uniform _ _).chance_eq]
  refine ratio_le Fintype.card_ne_zero blsR_ne ?_
  refine le_trans (Nat.mul_le_mul_right _ (card_mono fun c hc => ?_))
    (C81 S hS m cfg ps ht (bls_small hcap).le hcap k _ rfl (fun l => adv (l.map List.ofFn)) tail)
  rw [← assault_ofFn]
  exact hc

/-! ### batch verification -/

/-- **C104** (batch verification). A batch of `k` Schnorr signatures with a wrong one passes with probability at most
`(k - 1) / r`. -/
theorem C104_batch (C : Curve G) (H : HashEnv blsR) (hH : HashTotal H) (g : G) (tail : Rng blsR) (pks : List G)
    (msgs : List (List UInt8)) (sigs : List (Schnorr.Sig blsR G)) (h2 : pks.length = msgs.length)
    (h3 : pks.length = sigs.length) (i : ℕ) (hi : i < pks.length)
    (hv : Schnorr.verify C H g pks[i] msgs[i] sigs[i] ≠ .ok ()) :
    chance frRand (fun α => Schnorr.batchVerify C H g (Spec.tape [α] tail) pks msgs sigs = .ok ()) ≤
      (pks.length - 1 : ℕ) * (blsR : ℝ≥0∞)⁻¹ := by
  have htape : ∀ α : ZMod blsR, Spec.tape [α] tail = Spec.withFirst α tail := by
    intro α
    funext j
    rcases j with - | j <;> simp [Spec.tape, Spec.withFirst]
  rw [frRand_uniform.chance_eq]
  simp only [htape, id]
  refine ratio_le Fintype.card_ne_zero blsR_ne ?_
  rw [ZMod.card]
  refine Nat.mul_le_mul_right _ ?_
  convert (C48 C H hH g tail pks msgs sigs h2 h3 i hi hv).1

/-! ### deployments -/

/-- All parties draw their keys, then every dealer its `t + 1` coefficients. -/
def Spec.deployRand (n t : ℕ) : Sampler (List (ZMod blsR) × List (List (ZMod blsR))) :=
  .bind (times frRand n) fun ks => .bind (times (times frRand (t + 1)) n) fun cs => .ret (ks, cs)

/-- The draws of a deployment: the given ones first, then those of `x`. -/
def Spec.drawsFrom {r : ℕ} (x : Spec.Draws r) (d : List (ZMod r) × List (List (ZMod r))) : Spec.Draws r :=
  ⟨fun i => Spec.tape d.1[i]?.toList (x.key i), x.seed, fun i => Spec.tape (d.2.getD i []) (x.deal i)⟩

theorem drawsFrom_ofFn {r n t : ℕ} [Fact r.Prime] (x : Spec.Draws r) (k : Fin n → ZMod r) (c : Fin n → Fin (t + 1) → ZMod r) :
    Spec.drawsFrom x (List.ofFn k, List.ofFn fun i => List.ofFn (c i)) = Spec.drawsOf x k c := by
  unfold Spec.drawsFrom Spec.drawsOf
  congr 1
  · funext i
    simp only [List.getElem?_ofFn]
    split
    · rename_i h
      rw [Option.toList_some, ← tape_ofFn]
      rfl
    · funext j; rfl
  · funext i
    simp only [List.getD_eq_getElem?_getD, List.getElem?_ofFn]
    split
    · rename_i h
      rw [Option.getD_some, tape_ofFn]
    · funext j; rfl

theorem deployRand_uniform (n t : ℕ) : UniformVia (Spec.deployRand n t)
    (fun z : (Fin n → ZMod blsR) × (Fin n → Fin (t + 1) → ZMod blsR) => (List.ofFn z.1, List.ofFn fun i => List.ofFn (z.2 i))) :=
  (draws_uniform n).pair (rows_uniform n (t + 1)) (g := fun ks cs => (ks, cs)) fun _ _ h =>
    Prod.ext ((draws_uniform n).inj (Prod.ext_iff.1 h).1) ((rows_uniform n (t + 1)).inj (Prod.ext_iff.1 h).2)

theorem union_bound (q Q n : ℕ) (hq : 1 ≤ q) (hQ : q ≤ Q) :
    q ^ n * Q ^ n * q ≤ (q - 1) ^ n * (Q - 1) ^ n * q + 2 * n * (q ^ n * Q ^ n) := by
  have hq0 : (0 : ℝ) < q := by exact_mod_cast hq
  have hQ0 : (0 : ℝ) < Q := lt_of_lt_of_le hq0 (by exact_mod_cast hQ)
  have hB := one_add_mul_le_pow (a := -(1 / (q : ℝ))) (by
    have : (1 : ℝ) / q ≤ 1 := by rw [div_le_one hq0]; exact_mod_cast hq
    linarith) (2 * n)
  have h1 : (1 + -(1 / (q : ℝ))) ^ (2 * n) ≤ (1 - 1 / q) ^ n * (1 - 1 / Q) ^ n := by
    rw [two_mul, pow_add, ← sub_eq_add_neg]
    have hnn : (0 : ℝ) ≤ 1 - 1 / q := by
      have : (1 : ℝ) / q ≤ 1 := by rw [div_le_one hq0]; exact_mod_cast hq
      linarith
    refine mul_le_mul_of_nonneg_left (pow_le_pow_left₀ hnn ?_ n) (pow_nonneg hnn n)
    have : (1 : ℝ) / Q ≤ 1 / q := one_div_le_one_div_of_le hq0 (by exact_mod_cast hQ)
    linarith
  have h2 : (1 - 1 / (q : ℝ)) * q = q - 1 := by field_simp
  have h3 : (1 - 1 / (Q : ℝ)) * Q = Q - 1 := by field_simp
  have h4 : ((q : ℝ) - 1) ^ n * ((Q : ℝ) - 1) ^ n = (1 - 1 / (q : ℝ)) ^ n * (1 - 1 / (Q : ℝ)) ^ n * (q ^ n * Q ^ n) := by
    rw [← h2, ← h3, mul_pow, mul_pow]; ring
  have hpos : (0 : ℝ) < q ^ n * Q ^ n := by positivity
  have h5 : (1 + ((2 * n : ℕ) : ℝ) * -(1 / (q : ℝ))) * (q ^ n * Q ^ n) ≤ ((q : ℝ) - 1) ^ n * ((Q : ℝ) - 1) ^ n := by
    rw [h4]
    exact mul_le_mul_of_nonneg_right (hB.trans h1) hpos.le
  have h6 : ((q ^ n * Q ^ n * q : ℕ) : ℝ) ≤ (((q - 1) ^ n * (Q - 1) ^ n * q + 2 * n * (q ^ n * Q ^ n) : ℕ) : ℝ) := by
    push_cast [Nat.cast_sub hq, Nat.cast_sub (hq.trans hQ)]
    have := mul_le_mul_of_nonneg_right h5 hq0.le
    have he : (1 + ((2 * n : ℕ) : ℝ) * -(1 / (q : ℝ))) * (q ^ n * Q ^ n) * q = q ^ n * Q ^ n * q - 2 * n * (q ^ n * Q ^ n) := by
      push_cast; field_simp; ring
    rw [he] at this
    linarith
  exact_mod_cast h6

open Classical in
/-- **C104** (deployments). When all keys and coefficients are drawn by `Scalar::rand`, every dealer deals, the plan of aggregation
succeeds and every party can decrypt with probability exactly `(1 - 1/r)^n (1 - 1/r^(t+1))^n`, hence at least `1 - 2n/r`. -/
theorem C104_deploy (S : Suite blsR G1 G2 K) (hS : PairLaws S) (hH : HashTotal S.hash) (hE : EdLaws S.ed) (md m : Mode)
    (cfg : Config G1 G2) (x : Spec.Draws blsR) (hdeg : cfg.degree + 2 ≤ cfg.numParticipants) (hcap : cfg.numParticipants < 2 ^ 58)
    (p : Spec.Plan blsR) (hp : ∀ i ∈ p.leaves, i < cfg.numParticipants) (hw : ∀ i, p.leaves.count i < 2 ^ 64) :
    chance (Spec.deployRand cfg.numParticipants cfg.degree) (fun d => Spec.Works S md m cfg (Spec.drawsFrom x d) p) =
      ((blsR - 1) ^ cfg.numParticipants * (blsR ^ (cfg.degree + 1) - 1) ^ cfg.numParticipants : ℕ) /
        ((blsR ^ cfg.numParticipants * (blsR ^ (cfg.degree + 1)) ^ cfg.numParticipants : ℕ) : ℝ≥0∞) ∧
    1 ≤ chance (Spec.deployRand cfg.numParticipants cfg.degree) (fun d => Spec.Works S md m cfg (Spec.drawsFrom x d) p) +
      (2 * cfg.numParticipants : ℕ) * (blsR : ℝ≥0∞)⁻¹ := by
  have key : chance (Spec.deployRand cfg.numParticipants cfg.degree) (fun d => Spec.Works S md m cfg (Spec.drawsFrom x d) p) =
      ((blsR - 1) ^ cfg.numParticipants * (blsR ^ (cfg.degree + 1) - 1) ^ cfg.numParticipants : ℕ) /
        ((blsR ^ cfg.numParticipants * (blsR ^ (cfg.degree + 1)) ^ cfg.numParticipants : ℕ) : ℝ≥0∞) := by
    rw [(deployRand_uniform _ _).chance_eq]
    simp only [drawsFrom_ofFn]
    rw [← C85_count S hS hH hE md m cfg x hdeg (bls_small hcap).le hcap p hp hw]
    congr 2
    simp only [Fintype.card_prod, Fintype.card_fun, Fintype.card_fin, ZMod.card]
  refine ⟨key, ?_⟩
  rw [key]
  generalize cfg.numParticipants = n
  have hR : blsR ≤ blsR ^ (cfg.degree + 1) := Nat.le_self_pow (Nat.succ_ne_zero _) _
  have hle := union_bound blsR (blsR ^ (cfg.degree + 1)) n (Nat.one_le_iff_ne_zero.2 blsR_ne) hR
  have hq : blsR ≠ 0 := blsR_ne
  generalize blsR ^ (cfg.degree + 1) = Q at hle hR ⊢
  generalize blsR = q at hle hq hR ⊢
  have hb : q ^ n * Q ^ n ≠ 0 := mul_ne_zero (pow_ne_zero _ hq) (pow_ne_zero _ (by omega))
  generalize q ^ n * Q ^ n = b at hle hb ⊢
  generalize (q - 1) ^ n * (Q - 1) ^ n = a at hle ⊢
  have hb' : (b : ℝ≥0∞) ≠ 0 := Nat.cast_ne_zero.2 hb
  have hq' : (q : ℝ≥0∞) ≠ 0 := Nat.cast_ne_zero.2 hq
  have hbt : (b : ℝ≥0∞) ≠ ⊤ := ENNReal.natCast_ne_top _
  have hqt : (q : ℝ≥0∞) ≠ ⊤ := ENNReal.natCast_ne_top _
  have hle' : (b * q : ℝ≥0∞) ≤ a * q + (2 * n : ℕ) * b := by exact_mod_cast hle
  have hbq : (b * q : ℝ≥0∞) ≠ 0 := mul_ne_zero hb' hq'
  rw [← ENNReal.mul_le_mul_iff_right hbq (ENNReal.mul_ne_top hbt hqt), mul_one, mul_add]
  refine hle'.trans (le_of_eq ?_)
  congr 1
  · rw [mul_comm (b : ℝ≥0∞), mul_assoc, ENNReal.mul_div_cancel hb' hbt, mul_comm]
  · rw [mul_comm ((2 * n : ℕ) : ℝ≥0∞) (q : ℝ≥0∞)⁻¹, ← mul_assoc, mul_assoc (b : ℝ≥0∞), ENNReal.mul_inv_cancel hq' hqt, mul_one, mul_comm]

/-! ### secrecy -/

open Classical in
/-- **C104** (secrecy). One honest dealer `h` draws by `Scalar::rand`. Whatever at most `t` parties decrypt in the share of `h`, the probability
of this view together with reconstruction of `s • g1` is the same for all secrets `s`. -/
theorem C104_secrecy (S : Suite blsR G1 G2 K) (hS : PairLaws S) (hH : HashTotal S.hash) (hE : EdLaws S.ed) (md m : Mode)
    (cfg : Config G1 G2) (x : Spec.Draws blsR) (hdeg : cfg.degree + 2 ≤ cfg.numParticipants)
    (hcap : cfg.numParticipants < 2 ^ 58) (hkey : ∀ i < cfg.numParticipants, x.key i 0 ≠ 0) (hg1 : cfg.srs.g1 ≠ 0)
    (p : Spec.Plan blsR) (hp : ∀ i ∈ p.leaves, i < cfg.numParticipants) (hw : ∀ i, p.leaves.count i < 2 ^ 64) (ids : List ℕ)
    (hsel : Spec.Selection cfg.numParticipants cfg.degree ids) (h : ℕ) (hh : h < cfg.numParticipants) (hmem : h ∈ p.leaves)
    (hdeal : ∀ i < cfg.numParticipants, i ≠ h → ∃ k ≤ cfg.degree, x.deal i k ≠ 0)
    (T : Finset ℕ) (hT : ∀ i ∈ T, i < cfg.numParticipants) (hcard : T.card ≤ cfg.degree) (view : ℕ → G1)
    (hview : ∃ i ∈ T, view i ≠ 0) (tail : Rng blsR) (s s' : ZMod blsR) :
    chance (times frRand (cfg.degree + 1)) (fun c => Spec.Leads S md m cfg p ids h T view s (Spec.setDeal x h (Spec.tape c tail))) =
    chance (times frRand (cfg.degree + 1)) (fun c => Spec.Leads S md m cfg p ids h T view s' (Spec.setDeal x h (Spec.tape c tail))) := by
  have hweight : (p.leaves.count h : ZMod blsR) ≠ 0 := by
    rw [Ne, ZMod.natCast_eq_zero_iff]
    intro hd
    have h1 := Nat.le_of_dvd (List.count_pos_iff.2 hmem) hd
    have h2 := hw h
    have h3 : 2 ^ 64 < blsR := by decide +kernel
    omega
  rw [(draws_uniform _).chance_eq, (draws_uniform _).chance_eq]
  simp only [tape_ofFn]
  have := C86 S hS hH hE md m cfg x hdeg (bls_small hcap) hcap hkey hg1 p hp hw ids hsel h hh hdeal hweight T hT hcard view
    tail s s' (.inl hview)
  congr 2

/-! ### the repository's tests -/

/-- The last of `n + 1` draws hits a value determined by the others with probability `1 / r`. -/
theorem chance_last (n : ℕ) (f : (Fin n → ZMod blsR) → ZMod blsR) (tail : Rng blsR) (p : Rng blsR → Prop)
    (hp : ∀ rng, p rng ↔ rng n = f fun i => rng i) :
    chance (times frRand (n + 1)) (fun cs => p (Spec.tape cs tail)) = (blsR : ℝ≥0∞)⁻¹ := by
  classical
  rw [(draws_uniform _).chance_eq]
  have hcard : (univ.filter fun c : Fin (n + 1) → ZMod blsR => p (Spec.tape (List.ofFn c) tail)).card = blsR ^ n := by
    have hc : blsR ^ n = (univ : Finset (Fin n → ZMod blsR)).card := by
      rw [Finset.card_univ, Fintype.card_fun, Fintype.card_fin, ZMod.card]
    rw [hc]
    refine Finset.card_bij' (fun c _ => Fin.init c) (fun d _ => Fin.snoc d (f d)) ?_ ?_ ?_ ?_
    · intro c _; exact mem_univ _
    · intro d _
      rw [mem_filter]
      refine ⟨mem_univ _, ?_⟩
      rw [hp, tape_ofFn]
      have h1 : Spec.withPrefix (Fin.snoc d (f d) : Fin (n + 1) → ZMod blsR) tail n = f d := by
        unfold Spec.withPrefix
        rw [dif_pos (Nat.lt_succ_self n)]
        exact Fin.snoc_last (α := fun _ => ZMod blsR) (f d) d
      rw [h1]
      congr 1
      funext i
      unfold Spec.withPrefix
      rw [dif_pos (Nat.lt_succ_of_lt i.2)]
      exact (Fin.snoc_castSucc (α := fun _ => ZMod blsR) (f d) d i).symm
    · intro c hc
      rw [mem_filter, hp, tape_ofFn] at hc
      have h := hc.2
      unfold Spec.withPrefix at h
      rw [dif_pos (Nat.lt_succ_self n)] at h
      have h2 : (fun i : Fin n => if h : (i : ℕ) < n + 1 then c ⟨i, h⟩ else tail i) = Fin.init c := by
        funext i
        rw [dif_pos (Nat.lt_succ_of_lt i.2)]
        rfl
      rw [h2] at h
      rw [← h]
      exact Fin.snoc_init_self c
    · intro d _
      exact Fin.init_snoc _ _
  rw [hcard, Fintype.card_fun, Fintype.card_fin, ZMod.card, pow_succ]
  push_cast
  have hr0 : (blsR : ℝ≥0∞) ≠ 0 := Nat.cast_ne_zero.2 blsR_ne
  have hrt : (blsR : ℝ≥0∞) ≠ ⊤ := ENNReal.natCast_ne_top _
  rw [div_eq_mul_inv, ENNReal.mul_inv (.inr hrt) (.inr hr0), ← mul_assoc,
    ENNReal.mul_inv_cancel (pow_ne_zero _ hr0) (ENNReal.pow_ne_top hrt), one_mul]

/-- All of `t + 1` draws are zero with probability `1 / r^(t+1)`. -/
theorem chance_zero (t : ℕ) (tail : Rng blsR) (p : Rng blsR → Prop) (hp : ∀ rng, p rng ↔ ¬ Spec.SomeCoeff rng t) :
    chance (times frRand (t + 1)) (fun cs => p (Spec.tape cs tail)) = ((blsR : ℝ≥0∞) ^ (t + 1))⁻¹ := by
  classical
  rw [(draws_uniform _).chance_eq]
  have hset : (univ.filter fun c : Fin (t + 1) → ZMod blsR => p (Spec.tape (List.ofFn c) tail)) = {0} := by
    ext c
    rw [mem_filter, hp, tape_ofFn, mem_singleton]
    have hw : ∀ k (hk : k < t + 1), Spec.withPrefix c tail k = c ⟨k, hk⟩ := fun k hk => by rw [Spec.withPrefix, dif_pos hk]
    constructor
    · rintro ⟨-, h⟩
      funext i
      by_contra hne
      exact h ⟨i, Nat.lt_succ_iff.1 i.2, by rw [hw i i.2]; exact hne⟩
    · rintro rfl
      exact ⟨mem_univ _, fun ⟨k, hk, h⟩ => h (by rw [hw k (Nat.lt_succ_iff.2 hk)]; rfl)⟩
  rw [hset, card_singleton, Fintype.card_fun, Fintype.card_fin, ZMod.card, Nat.cast_one, one_div, Nat.cast_pow]

/-- **C104** (tests of tampered proofs). The five tests that replace the last draw of a proof, and are marked `#[should_panic]`,
return, hence fail, with probability exactly `1 / r`. -/
theorem C104_tampered {G' : Type} [AddCommGroup G'] [DecidableEq G'] [Module (ZMod blsR) G'] (C : Curve G) (C' : Curve G')
    (hg : C.gen ≠ 0) (H : HashEnv blsR) (hH : HashTotal H) (tail : Rng blsR) :
    chance (times frRand 3) (fun cs => Tests.dlkMalformedCommitment C H (Spec.tape cs tail) = .ok ()) = (blsR : ℝ≥0∞)⁻¹ ∧
    chance (times frRand 3) (fun cs => Tests.dlkMalformedChallenge C H (Spec.tape cs tail) = .ok ()) = (blsR : ℝ≥0∞)⁻¹ ∧
    chance (times frRand 3) (fun cs => Tests.dlkMalformedResponse C H (Spec.tape cs tail) = .ok ()) = (blsR : ℝ≥0∞)⁻¹ ∧
    chance (times frRand 3) (fun cs => Tests.dleqMalformedChallenge C C' H (Spec.tape cs tail) = .ok ()) = (blsR : ℝ≥0∞)⁻¹ ∧
    chance (times frRand 3) (fun cs => Tests.dleqMalformedResponse C C' H (Spec.tape cs tail) = .ok ()) = (blsR : ℝ≥0∞)⁻¹ := by
  choose c hc using fun v : ZMod blsR => dlk_challenge_ok C H hH C.gen (v • C.gen)
  choose d hd using fun u v : ZMod blsR =>
    dleq_challenge_ok C C' H hH (C.gen, C'.gen) (u • C.gen, u • C'.gen) (v • C.gen, v • C'.gen)
  refine ⟨chance_last 2 (fun x => x 1) tail (fun rng => Tests.dlkMalformedCommitment C H rng = .ok ()) fun rng => ?_,
    chance_last 2 (fun x => c (x 1)) tail (fun rng => Tests.dlkMalformedChallenge C H rng = .ok ()) fun rng => ?_,
    chance_last 2 (fun x => x 1 - x 0 * c (x 1)) tail (fun rng => Tests.dlkMalformedResponse C H rng = .ok ()) fun rng => ?_,
    chance_last 2 (fun x => d (x 0) (x 1)) tail (fun rng => Tests.dleqMalformedChallenge C C' H rng = .ok ()) fun rng => ?_,
    chance_last 2 (fun x => x 1 - x 0 * d (x 0) (x 1)) tail (fun rng => Tests.dleqMalformedResponse C C' H rng = .ok ())
      fun rng => ?_⟩
  · exact (returns_iff (C101_dlk_commitment C hg H hH rng)).1
  · rw [(returns_iff (C101_dlk_challenge C H hH rng)).1, hc]
    exact ⟨fun h => (Res.ok.inj h).symm, fun h => congrArg _ h.symm⟩
  · exact (returns_iff (C101_dlk_response C hg H rng _ (hc _))).1
  · rw [(returns_iff (C101_dleq_challenge C C' H hH rng)).1, hd]
    exact ⟨fun h => (Res.ok.inj h).symm, fun h => congrArg _ h.symm⟩
  · exact (returns_iff (C101_dleq_response C C' hg H rng _ (hd _ _))).1

/-- **C104** (tests that deal). They fail only when all coefficients drawn are zero: with probability `1 / r^4` for the tests of
decomposition proofs and shares, `1 / r^2` for the test of a single node, `1 / r^3` for that of double aggregation and
`1 / r^(d+1)` for those of interpolation in degree `d`. -/
theorem C104_dealing (S : Suite blsR G1 G2 K) (hS : PairLaws S) (hE : EdLaws S.ed) (hH : HashTotal S.hash) (m : Mode) (srs : SRS G1 G2)
    (hg : srs.g2 ≠ 0) (P : G1) (key tail : Rng blsR) (keys recv : ℕ → Rng blsR) (seed : Bytes 32) (seeds : ℕ → Bytes 32) (deg : ℕ)
    (hd : deg < 100) :
    chance (times frRand 4) (fun cs => Tests.decompSimple S m srs (Spec.tape cs tail) = .panic) = ((blsR : ℝ≥0∞) ^ 4)⁻¹ ∧
    chance (times frRand 4) (fun cs => Tests.createShare S m srs P key seed (Spec.tape cs tail) = .panic) =
      ((blsR : ℝ≥0∞) ^ 4)⁻¹ ∧
    chance (times frRand 4) (fun cs => Tests.aggregateOne S m srs P key seed (Spec.tape cs tail) = .panic) =
      ((blsR : ℝ≥0∞) ^ 4)⁻¹ ∧
    chance (times frRand 2) (fun cs => Tests.nodeOne S m srs key seed (Spec.tape cs tail) = .panic) = ((blsR : ℝ≥0∞) ^ 2)⁻¹ ∧
    chance (times frRand 3) (fun cs => Tests.nodeDouble S m srs keys seeds (Spec.tape cs tail) recv = .panic) =
      ((blsR : ℝ≥0∞) ^ 3)⁻¹ ∧
    chance (times frRand (deg + 1)) (fun cs => Tests.simpleReconstruct m deg srs.g2 (Spec.tape cs tail) = .panic) =
      ((blsR : ℝ≥0∞) ^ (deg + 1))⁻¹ ∧
    chance (times frRand (deg + 1)) (fun cs => Tests.g2Reconstruct m deg srs.g2 (Spec.tape cs tail) = .panic) =
      ((blsR : ℝ≥0∞) ^ (deg + 1))⁻¹ :=
  have hr : 2 ^ 64 < blsR := by decide +kernel
  ⟨chance_zero 3 tail (fun rng => Tests.decompSimple S m srs rng = .panic) fun rng =>
      (returns_iff (C101_decomp_simple S hH m srs rng)).2,
   chance_zero 3 tail (fun rng => Tests.createShare S m srs P key seed rng = .panic) fun rng =>
      (returns_iff (C101_share_create S hE hH m srs P key seed rng)).2,
   chance_zero 3 tail (fun rng => Tests.aggregateOne S m srs P key seed rng = .panic) fun rng =>
      (returns_iff (C101_share_one S hE hH m srs P key seed rng)).2,
   chance_zero 1 tail (fun rng => Tests.nodeOne S m srs key seed rng = .panic) fun rng =>
      (returns_iff (C101_node_one S hE hH m srs key seed rng)).2,
   chance_zero 2 tail (fun rng => Tests.nodeDouble S m srs keys seeds rng recv = .panic) fun rng =>
      (returns_iff (C101_node_double S hS hE hH m (by omega) srs hg keys seeds rng recv)).2,
   chance_zero deg tail (fun rng => Tests.simpleReconstruct m deg srs.g2 rng = .panic) fun rng =>
      (returns_iff (C101_poly_simple m deg hd (by omega) srs.g2 rng)).2,
   chance_zero deg tail (fun rng => Tests.g2Reconstruct m deg srs.g2 rng = .panic) fun rng =>
      (returns_iff (C101_poly_g2 m deg hd (by omega) srs.g2 rng)).2⟩

/-! ### Examples -/

/-- Non-vacuity of C104_degree: the vector (0, 0, 1) is not a codeword of degree 1. -/
example (tail : Rng blsR) : chance (times frRand 1)
    (fun cs => (ensureDegree .checked (Spec.tape cs tail) [(0 : ZMod blsR), 0, 1] 1).isOk) ≤ (blsR : ℝ≥0∞)⁻¹ := by
  refine C104_degree .checked 1 [(0 : ZMod blsR), 0, 1] ?_ (by decide) (by simp) tail
  rintro ⟨A, hA⟩
  have h0 := hA 0 (by simp)
  have h1 := hA 1 (by simp)
  have h2 := hA 2 (by simp)
  simp [Finset.sum_range_succ, Spec.point] at h0 h1 h2
  have : (0 : ZMod blsR) = 1 := by linear_combination 2 * h1 - h0 - h2
  exact zero_ne_one this

/-- Four parties of threshold 1 over the scalars of BLS12-381. -/
def Toy.frCfg : Config (ZMod blsR) (ZMod blsR) := ⟨⟨1, 1, 1⟩, 1, 4⟩

/-- Non-vacuity of C104_deploy: the laws hold for the toy suite over the scalars of BLS12-381. -/
example (x : Spec.Draws blsR) (ρ : Rng blsR) : 1 ≤ chance (Spec.deployRand 4 1) (fun d =>
      Spec.Works (Toy.suite blsR) .checked .checked Toy.frCfg (Spec.drawsFrom x d) (.share (.share .fresh ρ 2) ρ 0)) +
      (8 : ℕ) * (blsR : ℝ≥0∞)⁻¹ :=
  (C104_deploy (Toy.suite blsR) (Toy.pairLaws blsR) (Toy.hashTotal blsR) Toy.edLaws .checked .checked Toy.frCfg x (by decide)
    (by decide) (.share (.share .fresh ρ 2) ρ 0) (by simp [Spec.Plan.leaves, Toy.frCfg]) (fun i =>
      lt_of_le_of_lt List.count_le_length (by simp [Spec.Plan.leaves]))).2

/-- Non-vacuity of C104_tampered. -/
example (tail : Rng blsR) : chance (times frRand 3) (fun cs =>
    Tests.dlkMalformedCommitment (Toy.curve blsR) (Toy.hashEnv blsR) (Spec.tape cs tail) = .ok ()) = (blsR : ℝ≥0∞)⁻¹ :=
  (C104_tampered (Toy.curve blsR) (Toy.curve blsR) (by simp [Toy.curve]) (Toy.hashEnv blsR) (Toy.hashTotal blsR) tail).1

end Verif
