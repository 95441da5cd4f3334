import Verif.Props.Deal
import Verif.Props.Aggregate
import Verif.Lemmas.History

/-!
# Dealings as commitments: C89
-/

open Finset Polynomial

set_option linter.unusedSectionVars false

namespace Verif

variable {r : ℕ} [Fact r.Prime] {G1 G2 K : Type}
  [AddCommGroup G1] [DecidableEq G1] [AddCommGroup G2] [DecidableEq G2]
  [Module (ZMod r) G1] [Module (ZMod r) G2]

/-- The core with all group elements negated. -/
def Spec.negCore (a : PVSSCore G1 G2) : PVSSCore G1 G2 := ⟨a.encs.map (-·), a.comms.map (-·)⟩

theorem coreAggregate_exists {a b : PVSSCore G1 G2} {n : ℕ} (hn : 1 ≤ n) (h1 : a.encs.length = n) (h2 : a.comms.length = n)
    (h3 : b.encs.length = n) (h4 : b.comms.length = n) : ∃ c, a.aggregate b = .ok c :=
  ⟨_, (coreAggregate_iff a b ⟨_, _⟩).2 ⟨by intro h; rw [h] at h2; simp at h2; omega, by omega, by omega, by omega, rfl, rfl⟩⟩

/-- **C89** (sum). Aggregating sharings of `p` and `q` succeeds and gives the sharing of `p + q`. -/
theorem C89_add (g2 : G2) (n t : ℕ) (hn : 1 ≤ n) (pk : ℕ → G1) (a b : PVSSCore G1 G2) (p q : (ZMod r)[X])
    (ha : Spec.Shares g2 n t pk a p) (hb : Spec.Shares g2 n t pk b q) :
    ∃ c, a.aggregate b = .ok c ∧ Spec.Shares g2 n t pk c (p + q) := by
  obtain ⟨c, hc⟩ := coreAggregate_exists hn ha.encs_length ha.comms_length hb.encs_length hb.comms_length
  exact ⟨c, hc, shares_add ha hb hc⟩

/-- **C89** (inverse). Every core with equally many encryptions and commitments (one at least) has an inverse: adding the negated
core gives zeros, for sharings the sharing of `-p`. -/
theorem C89_neg (a : PVSSCore G1 G2) (n : ℕ) (hn : 1 ≤ n) (h1 : a.encs.length = n) (h2 : a.comms.length = n) :
    a.aggregate (Spec.negCore a) = .ok ⟨List.replicate n 0, List.replicate n 0⟩ ∧
    ∀ (g2 : G2) (t : ℕ) (pk : ℕ → G1) (p : (ZMod r)[X]), Spec.Shares g2 n t pk a p → Spec.Shares g2 n t pk (Spec.negCore a) (-p) := by
  refine ⟨?_, fun g2 t pk p h => ⟨by rw [natDegree_neg]; exact h.degree, by simp [Spec.negCore, h1], by simp [Spec.negCore, h2],
    fun i hi => ?_, fun i hi => ?_⟩⟩
  · refine (coreAggregate_iff _ _ _).2 ⟨by intro h; rw [h] at h2; simp at h2; omega, by simp [Spec.negCore], by simp [Spec.negCore],
      by omega, ?_, ?_⟩
    · apply List.ext_getElem (by simp [Spec.negCore, h1])
      intro i _ _
      simp [Spec.negCore]
    · apply List.ext_getElem (by simp [Spec.negCore, h2])
      intro i _ _
      simp [Spec.negCore]
  · simp only [Spec.negCore, List.getElem_map, eval_neg, neg_smul]
    rw [h.comm]
  · simp only [Spec.negCore, List.getElem_map, eval_neg, neg_smul]
    rw [h.enc]

/-- **C89** (determined). For given keys and generator the polynomial determines the core. -/
theorem C89_det (g2 : G2) (n t t' : ℕ) (pk : ℕ → G1) (a b : PVSSCore G1 G2) (p : (ZMod r)[X])
    (ha : Spec.Shares g2 n t pk a p) (hb : Spec.Shares g2 n t' pk b p) : a = b := by
  have h1 : a.encs = b.encs := by
    apply List.ext_getElem (by rw [ha.encs_length, hb.encs_length])
    intro i hi hi'
    rw [ha.enc, hb.enc]
  have h2 : a.comms = b.comms := by
    apply List.ext_getElem (by rw [ha.comms_length, hb.comms_length])
    intro i hi hi'
    rw [ha.comm, hb.comm]
  cases a; cases b
  simp only at h1 h2
  rw [h1, h2]

theorem poly_eq_of_points {n t : ℕ} (ht : t + 1 ≤ n) (hr : n ≤ r) {p q : (ZMod r)[X]} (hp : p.natDegree ≤ t) (hq : q.natDegree ≤ t)
    (h : ∀ i < n, p.eval (Spec.point r i) = q.eval (Spec.point r i)) : p = q := by
  have hinj : Set.InjOn (fun i => Spec.point r i) (range n : Finset ℕ) := node_injOn hr
  refine Polynomial.eq_of_degrees_lt_of_eval_index_eq (range n) hinj ?_ ?_ fun i hi => h i (by simpa using hi)
  · rw [card_range]
    exact lt_of_le_of_lt degree_le_natDegree (by exact_mod_cast (by omega : p.natDegree < n))
  · rw [card_range]
    exact lt_of_le_of_lt degree_le_natDegree (by exact_mod_cast (by omega : q.natDegree < n))

/-- **C89** (binding). The commitments alone determine the polynomial, hence the secret and all shares: nobody can open one core to
two secrets. -/
theorem C89_bind (g2 : G2) (hg : g2 ≠ 0) (n t : ℕ) (ht : t + 1 ≤ n) (hr : n ≤ r) (pk pk' : ℕ → G1) (a b : PVSSCore G1 G2)
    (p q : (ZMod r)[X]) (ha : Spec.Shares g2 n t pk a p) (hb : Spec.Shares g2 n t pk' b q) (h : a.comms = b.comms) : p = q := by
  refine poly_eq_of_points ht hr ha.degree hb.degree fun i hi => ?_
  have h1 := ha.comm i (by rw [ha.comms_length]; exact hi)
  have h2 := hb.comm i (by rw [hb.comms_length]; exact hi)
  simp only [h] at h1
  rw [h2] at h1
  exact (smul_left_injective (ZMod r) hg h1).symm

/-- **C89** (every codeword). If `g2` generates the group, then every codeword is the commitment vector of exactly one polynomial of
degree at most `t`. -/
theorem C89_codeword (g2 : G2) (hg : g2 ≠ 0) (hgen : ∀ x : G2, ∃ s : ZMod r, x = s • g2) (t : ℕ) (comms : List G2)
    (ht : t + 1 ≤ comms.length) (hr : comms.length ≤ r) (hc : Spec.Codeword r t comms) :
    ∃! p : (ZMod r)[X], p.natDegree ≤ t ∧ ∀ i (h : i < comms.length), comms[i] = p.eval (Spec.point r i) • g2 := by
  obtain ⟨A, hA⟩ := hc
  choose s hs using fun k => hgen (A k)
  have hev : ∀ x : ZMod r, (∑ k ∈ range (t + 1), monomial k (s k)).eval x = ∑ k ∈ range (t + 1), x ^ k * s k := by
    intro x
    rw [eval_finsetSum]
    exact sum_congr rfl fun k _ => by rw [eval_monomial, mul_comm]
  refine ⟨∑ k ∈ range (t + 1), monomial k (s k), ⟨?_, fun i hi => ?_⟩, ?_⟩
  · refine natDegree_sum_le_of_forall_le _ _ fun k hk => ?_
    exact (natDegree_monomial_le _).trans (by simp at hk; omega)
  · rw [hA i hi, hev, sum_smul]
    exact sum_congr rfl fun k _ => by rw [mul_smul, ← hs]
  · rintro q ⟨hq1, hq2⟩
    refine poly_eq_of_points ht hr hq1 (natDegree_sum_le_of_forall_le _ _ fun k hk =>
      (natDegree_monomial_le _).trans (by simp at hk; omega)) fun i hi => ?_
    apply smul_left_injective (ZMod r) hg
    show _ • g2 = _ • g2
    rw [← hq2 i hi, hA i hi, hev, sum_smul]
    exact sum_congr rfl fun k _ => by rw [mul_smul, ← hs]

/-- **C89** (of the code). `share_pvss` is additive in its draws: aggregating the cores dealt with two streams gives the core dealt
with their sum, whoever deals, unless the sum is the zero polynomial, on which dealing panics; then the
aggregate consists of zeros. -/
theorem C89 (m m' m'' : Mode) (nd nd' : Node r G1 G2) (hcfg : nd'.aggregator.config = nd.aggregator.config)
    (hps' : nd'.aggregator.participants = nd.aggregator.participants) (rng rng' tail tail' : Rng r)
    (a b : PVSSCore G1 G2) (sa sb : PVSSShareSecrets r G1) (ht : nd.aggregator.config.degree + 1 < 2 ^ 58)
    (ha : nd.sharePvss m rng = .ok ((a, sa), tail)) (hb : nd'.sharePvss m' rng' = .ok ((b, sb), tail')) :
    ∃ c, a.aggregate b = .ok c ∧
      ((∃ k ≤ nd.aggregator.config.degree, rng k + rng' k ≠ 0) → ∃ sc tl,
        nd.sharePvss m'' (fun k => rng k + rng' k) = .ok ((c, sc), tl) ∧ sc.p0 = sa.p0 + sb.p0) ∧
      ((∀ k ≤ nd.aggregator.config.degree, rng k + rng' k = 0) →
        c.encs = List.replicate nd.aggregator.config.numParticipants 0 ∧
        c.comms = List.replicate nd.aggregator.config.numParticipants 0) := by
  obtain ⟨hn, hps, hid, -⟩ := (C02 m nd rng ht).1.1 ⟨_, ha⟩
  let pk : ℕ → G1 := fun i => ((nd.aggregator.participants.get i).map (·.pkSig)).getD 0
  have hpk : ∀ i q, nd.aggregator.participants.get i = some q → q.pkSig = pk i := by
    intro i q hq; simp [pk, hq]
  obtain ⟨p, hp1, hp2, hp3, -⟩ := C01_sample m nd rng tail a sa pk hpk ht ha
  obtain ⟨q, hq1, hq2, hq3, -⟩ := C01_sample m' nd' rng' tail' b sb pk (by rw [hps']; exact hpk) (by rw [hcfg]; exact ht) hb
  rw [hcfg] at hq1 hq2
  obtain ⟨c, hc, hs⟩ := C89_add _ _ _ hn pk a b p q hp2 hq2
  refine ⟨c, hc, fun hne => ?_, fun hz => ?_⟩
  · obtain ⟨⟨⟨c', sc⟩, tl⟩, hd⟩ := (C02 m'' nd (fun k => rng k + rng' k) ht).1.2 ⟨hn, hps, hid, hne⟩
    obtain ⟨u, hu1, hu2, hu3, -⟩ := C01_sample m'' nd _ tl c' sc pk hpk ht hd
    have : u = p + q := by
      ext k
      rw [coeff_add, hu1, hp1, hq1]
      split <;> simp
    subst this
    refine ⟨sc, tl, ?_, by rw [hu3, hp3, hq3]⟩
    rw [hd, C89_det _ _ _ _ pk c c' _ hs hu2]
  · have : p + q = 0 := by
      ext k
      rw [coeff_add, hp1, hq1, coeff_zero]
      split
      · exact hz k ‹_›
      · simp
    rw [this] at hs
    have := C89_det _ _ _ 0 pk _ _ _ hs (shares_empty _ _ _ _)
    rw [this]
    exact ⟨rfl, rfl⟩

/-! ### Examples -/

/-- Non-vacuity of C89: the sharing of `5 + 2X` plus itself is dealt by the draws `10, 4`. -/
example : ∃ a sa tl c sc tl', (Toy.node 2).sharePvss .checked Toy.rng52 = .ok ((a, sa), tl) ∧ a.aggregate a = .ok c ∧
    (Toy.node 2).sharePvss .checked (fun k => Toy.rng52 k + Toy.rng52 k) = .ok ((c, sc), tl') ∧ sc.p0 = sa.p0 + sa.p0 := by
  obtain ⟨⟨⟨a, sa⟩, tl⟩, hx⟩ := ((C02 .checked (Toy.node 2) Toy.rng52 (by decide)).1).2
    ⟨by decide, by decide, by decide, 0, by decide, by decide⟩
  obtain ⟨c, hc, h, -⟩ := C89 .checked .checked .checked (Toy.node 2) (Toy.node 2) rfl rfl Toy.rng52 Toy.rng52 tl tl a a sa sa
    (by decide) hx hx
  obtain ⟨sc, tl', h1, h2⟩ := h ⟨0, by decide, by decide⟩
  exact ⟨a, sa, tl, c, sc, tl', hx, hc, h1, h2⟩

/-- Non-vacuity of C89_bind and C89_codeword: `7, 9, 11, 0` commits to `5 + 2X` only. -/
example (p : (ZMod 13)[X]) (hp : p.natDegree ≤ 1)
    (h : ∀ i (h : i < 4), ([7, 9, 11, 0] : List (ZMod 13))[i] = p.eval (Spec.point 13 i) • (1 : ZMod 13)) : p = C 5 + C 2 * X := by
  obtain ⟨q, -, hq⟩ := C89_codeword (r := 13) (1 : ZMod 13) (by decide) (fun x => ⟨x, by simp⟩) 1 [7, 9, 11, 0] (by decide) (by decide)
    ⟨![5, 2] ∘ Fin.ofNat 2, by decide⟩
  have h2 := hq (C 5 + C 2 * X) ⟨by compute_degree, by
    intro i hi
    have : i < 4 := hi
    interval_cases i <;> simp [Spec.point] <;> decide⟩
  rw [hq p ⟨hp, h⟩, h2]

end Verif
