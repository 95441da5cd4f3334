import Verif.Props.Converge

/-!
# Reconstruction against dishonest parties: C79, C80
-/

open Finset Polynomial

namespace Verif

set_option linter.unusedSectionVars false

variable {r : ℕ} [Fact r.Prime] {G1 G2 K : Type}
  [AddCommGroup G1] [DecidableEq G1] [AddCommGroup G2] [DecidableEq G2] [CommMonoid K] [DecidableEq K]
  [Module (ZMod r) G1] [Module (ZMod r) G2]

/-! ### C79 -/

theorem pair_sum_left {S : Suite r G1 G2 K} (hS : PairLaws S) {ι : Type} (s : Finset ι) (f : ι → G1) (Q : G2) :
    S.pair (∑ i ∈ s, f i) Q = ∏ i ∈ s, S.pair (f i) Q := by
  classical
  induction s using Finset.induction_on with
  | empty => simp [hS.zero_left]
  | insert i s hi ih => rw [sum_insert hi, prod_insert hi, hS.add_left, ih]

theorem pair_sum_right {S : Suite r G1 G2 K} (hS : PairLaws S) {ι : Type} (s : Finset ι) (P : G1) (f : ι → G2) :
    S.pair P (∑ i ∈ s, f i) = ∏ i ∈ s, S.pair P (f i) := by
  classical
  induction s using Finset.induction_on with
  | empty => simp [hS.zero_right]
  | insert i s hi ih => rw [sum_insert hi, prod_insert hi, hS.add_right, ih]

/-- A reconstruction from values that match the commitments in the pairing matches the reconstruction of the commitments. -/
theorem pair_recon {S : Suite r G1 G2 K} (hS : PairLaws S) {g1 : G1} {g2 : G2} {x : ℕ → ZMod r} {ds : List G1} {cs : List G2}
    {t : ℕ} (h : ∀ j ≤ t, S.pair (ds.getD j 0) g2 = S.pair g1 (cs.getD j 0)) :
    S.pair (recon x ds t) g2 = S.pair g1 (recon x cs t) := by
  unfold recon
  rw [pair_sum_left hS, pair_sum_right hS]
  refine prod_congr rfl fun j hj => ?_
  have hj' : j ≤ t := by simpa [Nat.lt_succ_iff] using hj
  rw [pair_smul hS, h j hj', ← hS.smul_comm, pair_smul hS]

/-- Interpolation in the target group of paired values is the pairing of the interpolation. -/
theorem lagrangeGt_pair (m : Mode) {S : Suite r G1 G2 K} (hS : PairLaws S) {n t : ℕ} {ids : List ℕ} {ds : List G1}
    (hn : n ≤ r) (hsel : Spec.Selection n t ids) (hlen : ids.length = ds.length) (epoch : G2) :
    lagrangeG1 m ds (ids.map (Spec.point r)) t = .ok (recon (fun k => (ids.map (Spec.point r)).getD k 0) ds t) ∧
    lagrangeGt (r := r) m (ds.map fun d => S.pair d epoch) (ids.map (· + 1)) t =
      .ok (S.pair (recon (fun k => (ids.map (Spec.point r)).getD k 0) ds t) epoch) := by
  have he := hsel.enough
  have hs := hsel.small
  have hinj := injOn_getD_of_nodup (0 : ZMod r) (l := ids.map (Spec.point r)) (k := t + 1)
    (by simpa using he) ((nodup_points hn hsel.nodup hsel.lt).sublist (List.take_sublist _ _))
  have hpt : ∀ k < t + 1, (((ids.map (· + 1)).getD k 0 : ℕ) : ZMod r) = (ids.map (Spec.point r)).getD k 0 := by
    intro k hk
    rw [getD_lt _ (by simp; omega), getD_lt _ (by simp; omega)]
    simp [Spec.point]
  refine ⟨lagrangeG1_eq m ds _ (by omega) (by simp [hlen]) hinj (by omega), ?_⟩
  have hinj' : Set.InjOn (fun k => (((ids.map (· + 1)).getD k 0 : ℕ) : ZMod r)) (range (t + 1) : Finset ℕ) := by
    intro a ha b hb hab
    have ha' : a < t + 1 := by simpa using ha
    have hb' : b < t + 1 := by simpa using hb
    apply hinj ha hb
    simp only at hab ⊢
    rwa [hpt a ha', hpt b hb'] at hab
  rw [lagrangeGt_eq m _ _ (by simp; omega) (by simp [hlen]) hinj' (by omega)]
  congr 1
  unfold recon
  rw [pair_sum_left hS]
  refine prod_congr rfl fun j hj => ?_
  have hj' : j < t + 1 := by simpa using hj
  have hl : lag0 (fun k => (((ids.map (· + 1)).getD k 0 : ℕ) : ZMod r)) t j =
      lag0 (fun k => (ids.map (Spec.point r)).getD k 0) t j := by
    unfold lag0
    refine prod_congr rfl fun k hk => ?_
    have hk' : k < t + 1 := by simpa using (mem_erase.1 hk).2
    simp only
    rw [hpt k hk', hpt j hj']
  rw [hl, pair_smul hS, getD_lt _ (by simp; omega), getD_lt _ (by omega)]
  simp

/-- The values `ds` submitted for the parties `ids`, by whomever, pass the public check against the commitments, each with
some mask. -/
def Spec.Checked (S : Suite r G1 G2 K) (g1 : G1) (g2 : G2) (comms : List G2) (ids : List ℕ) (ds : List G1) : Prop :=
  List.Forall₂ (fun i d => ∃ c ρ, comms[i]? = some c ∧ Spec.DecCheck S g1 g2 ρ c d) ids ds

/-- **C79**. Let the commitments be a codeword with the value `P` at zero. Then values that pass the public check
reconstruct, whatever the encryptions were and whoever submitted them, to the `s` with `e(s, g2) = e(g1, P)`, and in GT to
`e(s, h)` for every epoch generator `h`. -/
theorem C79 (m : Mode) (S : Suite r G1 G2 K) (hS : PairLaws S) (g1 : G1) (g2 : G2) (t : ℕ) (comms : List G2)
    (hc : Spec.Codeword r t comms) (hn : comms.length ≤ r) (P : G2) (hP : Spec.InterpolatesTo r t comms P)
    (ids : List ℕ) (ds : List G1) (hsel : Spec.Selection comms.length t ids)
    (hd : Spec.Checked S g1 g2 comms ids ds) :
    ∃ s, lagrangeG1 m ds (ids.map (Spec.point r)) t = .ok s ∧
      (∀ epoch, lagrangeGt (r := r) m (ds.map fun d => S.pair d epoch) (ids.map (· + 1)) t = .ok (S.pair s epoch)) ∧
      S.pair s g2 = S.pair g1 P ∧ (g2 ≠ 0 → ∀ s', S.pair s' g2 = S.pair g1 P → s' = s) := by
  have he := hsel.enough
  have hlen : ids.length = ds.length := List.Forall₂.length_eq hd
  have hlt : t + 1 ≤ comms.length := by
    have h1 := (List.subperm_of_subset hsel.nodup (fun i hi => List.mem_range.2 (hsel.lt i hi))).length_le
    simp at h1
    omega
  obtain ⟨A, hA⟩ := hc
  have hA0 : A 0 = P := interpolatesTo_unique hlt (by omega) ⟨A, fun j h _ => hA j h, rfl⟩ hP
  have hinj := injOn_getD_of_nodup (0 : ZMod r) (l := ids.map (Spec.point r)) (k := t + 1)
    (by simpa using he) ((nodup_points hn hsel.nodup hsel.lt).sublist (List.take_sublist _ _))
  set cs : List G2 := ids.map fun i => comms.getD i 0 with hcs
  have hrec : recon (fun k => (ids.map (Spec.point r)).getD k 0) cs t = P := by
    rw [← hA0]
    apply recon_exact hinj
    intro j hj
    have hj1 : j < ids.length := by omega
    have hi : ids[j] < comms.length := hsel.lt _ (List.getElem_mem hj1)
    rw [getD_lt _ (by simpa [hcs] using hj1), getD_lt _ (by simpa using hj1)]
    simp only [hcs, List.getElem_map]
    rw [getD_lt _ hi, hA _ hi]
    rfl
  have hpair : S.pair (recon (fun k => (ids.map (Spec.point r)).getD k 0) ds t) g2 = S.pair g1 P := by
    rw [← hrec]
    apply pair_recon hS
    intro j hj
    have hj1 : j < ids.length := by omega
    have hj2 : j < ds.length := by omega
    obtain ⟨c, ρ, h1, h2⟩ := (List.forall₂_iff_get.1 hd).2 j hj1 hj2
    simp only [List.get_eq_getElem] at h1 h2
    rw [getD_lt _ hj2, getD_lt _ (by simpa [hcs] using hj1)]
    simp only [hcs, List.getElem_map, List.getD_eq_getElem?_getD, h1, Option.getD_some]
    exact (decCheck_iff hS _ _ _ _ _).1 h2
  refine ⟨_, (lagrangeGt_pair (S := S) m hS hn hsel hlen 0).1, fun epoch => (lagrangeGt_pair m hS hn hsel hlen epoch).2, hpair,
    fun hg s' hs' => hS.left_inj hg (hs'.trans hpair.symm)⟩

/-- **C79** (agreement). Two collections of checked values, from different parties, in different order or number, give the
same result. -/
theorem C79_agree (m m' : Mode) (S : Suite r G1 G2 K) (hS : PairLaws S) (g1 : G1) (g2 : G2) (hg : g2 ≠ 0) (t : ℕ)
    (comms : List G2) (hc : Spec.Codeword r t comms) (hn : comms.length ≤ r) (ids ids' : List ℕ) (ds ds' : List G1)
    (hsel : Spec.Selection comms.length t ids) (hsel' : Spec.Selection comms.length t ids')
    (hd : Spec.Checked S g1 g2 comms ids ds) (hd' : Spec.Checked S g1 g2 comms ids' ds') :
    ∃ s, lagrangeG1 m ds (ids.map (Spec.point r)) t = .ok s ∧ lagrangeG1 m' ds' (ids'.map (Spec.point r)) t = .ok s := by
  obtain ⟨A, hA⟩ := id hc
  have hP : Spec.InterpolatesTo r t comms (A 0) := ⟨A, fun j h _ => hA j h, rfl⟩
  obtain ⟨s, h1, -, h2, -⟩ := C79 m S hS g1 g2 t comms hc hn _ hP ids ds hsel hd
  obtain ⟨s', h1', -, -, h2'⟩ := C79 m' S hS g1 g2 t comms hc hn _ hP ids' ds' hsel' hd'
  exact ⟨s, h1, by rw [h1', h2' hg s h2]⟩

/-- **C79** (accepted transcripts). If a peer has accepted the transcript and its commitments are a codeword (which the
degree test ensures up to C13), the result is the `s` with `e(s, g2) = e(g1, ∑ weight · gs)`: the contributors listed in
the transcript determine it. -/
theorem C79_accepted (m : Mode) (S : Suite r G1 G2 K) (hS : PairLaws S) (a : Aggregator r G1 G2) (rng rng' : Rng r)
    (tx : AggShare r G1 G2) (h : a.aggregationVerify S m rng tx = .ok rng')
    (ht : a.config.degree + 2 ≤ a.config.numParticipants) (hn : a.config.numParticipants ≤ r)
    (hcap : a.config.numParticipants < 2 ^ 58) (hc : Spec.Codeword r a.config.degree tx.core.comms)
    (ids : List ℕ) (ds : List G1) (hsel : Spec.Selection a.config.numParticipants a.config.degree ids)
    (hd : Spec.Checked S a.config.srs.g1 a.config.srs.g2 tx.core.comms ids ds) :
    ∃ s, lagrangeG1 m ds (ids.map (Spec.point r)) a.config.degree = .ok s ∧
      S.pair s a.config.srs.g2 = S.pair a.config.srs.g1 (Spec.weightedGs tx.contributions) := by
  obtain ⟨-, hl, rng1, -, -, -, hi, -⟩ := (aggregationVerify_iff S hS m a rng rng' tx).1 h
  rw [lagrangeSimple_iff m (by omega) (by omega) (by omega)] at hi
  obtain ⟨s, h1, -, h2, -⟩ := C79 m S hS a.config.srs.g1 a.config.srs.g2 a.config.degree tx.core.comms hc (by omega) _ hi ids ds
    (by rw [hl]; exact hsel) hd
  exact ⟨s, h1, h2⟩

/-! ### C80 -/

/-- The claim of C80: after any sequence of calls, if the commitments are a codeword, every admissible selection of key
holders that decrypts its slots of the transcript reconstructs the secret fixed by the listed contributors. -/
def C80_claim (S : Suite r G1 G2 K) (m : Mode) (cfg : Config G1 G2) (ps : BMap (Participant G1)) (sk : ℕ → ZMod r) : Prop :=
  ∀ (ops : List (Op r G1 G2)) (ids : List ℕ) (ds : List (DecryptedShare G1)),
    Spec.Codeword r cfg.degree ((Aggregator.new cfg ps).run S m ops).tx.core.comms →
    Spec.Selection cfg.numParticipants cfg.degree ids →
    Spec.Decrypted ((Aggregator.new cfg ps).run S m ops).tx.core.encs sk ids ds →
    ∃ s, lagrangeG1 m (ds.map (·.dec)) (ds.map fun d => Spec.point r d.origin) cfg.degree = .ok s ∧
      S.pair s cfg.srs.g2 =
        S.pair cfg.srs.g1 (Spec.weightedGs ((Aggregator.new cfg ps).run S m ops).tx.contributions)

theorem decrypted_origins {encs : List G1} {sk : ℕ → ZMod r} {ids : List ℕ} {ds : List (DecryptedShare G1)}
    (h : Spec.Decrypted encs sk ids ds) : ds.map (fun d => Spec.point r d.origin) = ids.map (Spec.point r) := by
  unfold Spec.Decrypted at h
  induction h with
  | nil => rfl
  | cons hab _ ih => rw [List.map_cons, List.map_cons, ih, hab.1]

theorem lag0_ne_zero {x : ℕ → ZMod r} {t j : ℕ} (hinj : Set.InjOn x (range (t + 1) : Finset ℕ)) (hj : j ≤ t)
    (h0 : ∀ k ≤ t, x k ≠ 0) : lag0 x t j ≠ 0 := by
  unfold lag0
  refine prod_ne_zero_iff.2 fun k hk => mul_ne_zero ?_ (inv_ne_zero (sub_ne_zero.2 fun h => ?_))
  · exact h0 k (by simpa [Nat.lt_succ_iff] using (mem_erase.1 hk).2)
  · exact (mem_erase.1 hk).1 (hinj (by simpa using (mem_erase.1 hk).2) (by simpa [Nat.lt_succ_iff] using hj) h)

theorem point_ne_zero_of_lt {n i : ℕ} (hn : n < r) (hi : i < n) : Spec.point r i ≠ 0 := by
  unfold Spec.point
  rw [Ne, ZMod.natCast_eq_zero_iff]
  intro h
  have := Nat.le_of_dvd (by omega) h
  omega

/-- **C80** (attack). Take any accepted share and replace the encryption of one other party `j` by anything else. The result is
still accepted, with the same randomness and the same `gs`, but every selection that uses party `j` reconstructs a
different value, while nobody did anything but decrypt its slot with its own key. -/
theorem C80_attack (S : Suite r G1 G2 K) (hS : PairLaws S) (m : Mode) (a : Aggregator r G1 G2) (rng rng' : Rng r)
    (sh : PVSSShare r G1 G2) (h : a.shareVerify S m rng sh = .ok rng') (hn : a.config.numParticipants < r)
    (j : ℕ) (hj : j ≠ sh.participantId) (hjn : j < a.config.numParticipants) (e : G1) (he : sh.core.encs[j]? ≠ some e)
    (sk : ℕ → ZMod r) (ids : List ℕ)
    (hsel : Spec.Selection a.config.numParticipants a.config.degree ids) (hjs : j ∈ ids.take (a.config.degree + 1))
    (ds ds' : List (DecryptedShare G1)) (hd : Spec.Decrypted sh.core.encs sk ids ds)
    (hd' : Spec.Decrypted (sh.core.encs.set j e) sk ids ds') (hsk : ∀ i ∈ ids, sk i ≠ 0) :
    a.shareVerify S m rng { sh with core := { sh.core with encs := sh.core.encs.set j e } } = .ok rng' ∧
    ∃ s s', lagrangeG1 m (ds.map (·.dec)) (ds.map fun d => Spec.point r d.origin) a.config.degree = .ok s ∧
      lagrangeG1 m (ds'.map (·.dec)) (ds'.map fun d => Spec.point r d.origin) a.config.degree = .ok s' ∧ s ≠ s' := by
  refine ⟨(C16_forge S hS m a rng rng' sh h j hj hjn e).1, ?_⟩
  have hen := hsel.enough
  have hsm := hsel.small
  set t := a.config.degree with ht
  have hl : ids.length = ds.length := List.Forall₂.length_eq hd
  have hl' : ids.length = ds'.length := List.Forall₂.length_eq hd'
  rw [decrypted_origins hd, decrypted_origins hd']
  have hinj := injOn_getD_of_nodup (0 : ZMod r) (l := ids.map (Spec.point r)) (k := t + 1)
    (by simpa using hen) ((nodup_points hn.le hsel.nodup hsel.lt).sublist (List.take_sublist _ _))
  refine ⟨_, _, lagrangeG1_eq m _ _ (by simp; omega) (by simp [hl]) hinj (by omega),
    lagrangeG1_eq m _ _ (by simp; omega) (by simp [hl']) hinj (by omega), ?_⟩
  obtain ⟨k, hk, hkj⟩ := List.getElem_of_mem hjs
  rw [List.length_take] at hk
  rw [List.getElem_take] at hkj
  have hk1 : k < ids.length := by omega
  have hel : j < sh.core.encs.length := by
    obtain ⟨q, -, -, h3, -⟩ := (shareVerify_iff S hS m a rng rng' sh).1 h
    omega
  have key : ∀ l < ids.length, l ≠ k → (ds.map (·.dec)).getD l 0 = (ds'.map (·.dec)).getD l 0 := by
    intro l hlt hne
    have h1 := (List.forall₂_iff_get.1 hd).2 l hlt (by omega)
    have h2 := (List.forall₂_iff_get.1 hd').2 l hlt (by omega)
    simp only [List.get_eq_getElem] at h1 h2
    have hij : j ≠ ids[l] := fun hij => hne ((List.Nodup.getElem_inj_iff hsel.nodup).1 (hij.symm.trans hkj.symm))
    rw [List.getElem?_set_ne hij, h1.2] at h2
    have := Option.some.inj h2.2
    rw [getD_lt _ (by simp; omega), getD_lt _ (by simp; omega)]
    simp only [List.getElem_map]
    exact smul_right_injective _ (hsk _ (List.getElem_mem hlt)) this
  have hne : (ds.map (·.dec)).getD k 0 ≠ (ds'.map (·.dec)).getD k 0 := by
    have h1 := (List.forall₂_iff_get.1 hd).2 k hk1 (by omega)
    have h2 := (List.forall₂_iff_get.1 hd').2 k hk1 (by omega)
    simp only [List.get_eq_getElem, hkj] at h1 h2
    rw [List.getElem?_set_self hel] at h2
    rw [getD_lt _ (by simp; omega), getD_lt _ (by simp; omega)]
    simp only [List.getElem_map]
    intro heq
    rw [← heq] at h2
    exact he (h1.2.trans h2.2.symm)
  intro heq
  unfold recon at heq
  have hkm : k ∈ range (t + 1) := by simp; omega
  rw [← add_sum_erase _ _ hkm, ← add_sum_erase (range (t + 1)) _ hkm] at heq
  have hrest : ∑ l ∈ (range (t + 1)).erase k, lag0 (fun k => (ids.map (Spec.point r)).getD k 0) t l • (ds.map (·.dec)).getD l 0 =
      ∑ l ∈ (range (t + 1)).erase k, lag0 (fun k => (ids.map (Spec.point r)).getD k 0) t l • (ds'.map (·.dec)).getD l 0 := by
    refine sum_congr rfl fun l hlm => ?_
    have h1 : l < t + 1 := by simpa using (mem_erase.1 hlm).2
    rw [key l (by omega) (mem_erase.1 hlm).1]
  rw [hrest, add_right_cancel_iff] at heq
  refine hne (smul_right_injective _ (lag0_ne_zero hinj (by omega) fun l hl2 => ?_) heq)
  rw [getD_lt _ (by simp; omega)]
  simp only [List.getElem_map]
  exact point_ne_zero_of_lt hn (hsel.lt _ (List.getElem_mem _))

/-- **C80** (proved part): the secret fixed by the contributors is reconstructed if the slots of the selected parties are
encrypted correctly. Missing for the full claim: an accepted transcript need not encrypt correctly (C16, C21), and then
`C80_attack` applies; parties that check each other's decryptions against the commitments are protected by C79. -/
theorem C80_partial (S : Suite r G1 G2 K) (hS : PairLaws S) (cfg : Config G1 G2) (ps : BMap (Participant G1))
    (hids : ∀ i q, ps.get i = some q → i < cfg.numParticipants) (hn : cfg.numParticipants ≤ r)
    (h64 : cfg.numParticipants < 2 ^ 64) (sk : ℕ → ZMod r) (ops : List (Op r G1 G2)) (ids : List ℕ)
    (ds : List (DecryptedShare G1))
    (hc : Spec.Codeword r cfg.degree ((Aggregator.new cfg ps).run S .checked ops).tx.core.comms)
    (hsel : Spec.Selection cfg.numParticipants cfg.degree ids)
    (hd : Spec.Decrypted ((Aggregator.new cfg ps).run S .checked ops).tx.core.encs sk ids ds)
    (hsk : ∀ i ∈ ids, sk i ≠ 0)
    (hok : ∀ i ∈ ids, Spec.EncOk S cfg.srs.g2 (sk i • cfg.srs.g1) ((Aggregator.new cfg ps).run S .checked ops).tx.core i) :
    ∃ s, lagrangeG1 .checked (ds.map (·.dec)) (ds.map fun d => Spec.point r d.origin) cfg.degree = .ok s ∧
      S.pair s cfg.srs.g2 =
        S.pair cfg.srs.g1 (Spec.weightedGs ((Aggregator.new cfg ps).run S .checked ops).tx.contributions) := by
  have hinv := C31 S hS cfg ps hids hn h64 ops
  set tx := ((Aggregator.new cfg ps).run S .checked ops).tx
  have hl := hinv.comms_length
  rw [decrypted_origins hd]
  obtain ⟨s, h1, -, h2, -⟩ := C79 .checked S hS cfg.srs.g1 cfg.srs.g2 cfg.degree tx.core.comms hc (by omega) _ hinv.interp ids
    (ds.map (·.dec)) (by rw [hl]; exact hsel) (by
      unfold Spec.Checked
      unfold Spec.Decrypted at hd
      clear hsel
      induction hd with
      | nil => exact .nil
      | cons hab _ ih =>
        rename_i i d ids' ds' _
        refine .cons ?_ (ih (fun j hj => hsk j (by simp [hj])) fun j hj => hok j (by simp [hj]))
        have hdec : (DecryptedShare.generate tx.core.encs (sk i) i : Res PVSSError _) = .ok d :=
          ((C05 tx.core.encs (sk i) i).2.1 d).2 ⟨hsk i (by simp), hab.1, hab.2⟩
        obtain ⟨c, h3, -, h4, -⟩ := C60 S hS cfg.srs.g1 cfg.srs.g2 (sk i) tx.core i (hok i (by simp)) d hdec
        exact ⟨c, 0, h3, h4 0⟩)
  exact ⟨s, h1, h2⟩

/-! ### concrete cases -/

namespace Toy

theorem codeword52 : Spec.Codeword 13 1 [(7 : ZMod 13), 9, 11, 13] := by
  refine ⟨fun k => if k = 0 then 5 else 2, fun i hi => ?_⟩
  match i, hi with
  | 0, _ => decide +revert
  | 1, _ => decide +revert
  | 2, _ => decide +revert
  | 3, _ => decide +revert

theorem interp52 : Spec.InterpolatesTo 13 1 [(7 : ZMod 13), 9, 11, 13] 5 := by
  refine ⟨fun k => if k = 0 then 5 else 2, fun i hi _ => ?_, rfl⟩
  match i, hi with
  | 0, _ => decide +revert
  | 1, _ => decide +revert
  | 2, _ => decide +revert
  | 3, _ => decide +revert

end Toy

/-- Non-vacuity of C79: values for the parties 3 and 0 (in this order) pass the check against the commitments to `5 + 2X`
with the masks 6 and 1, and the reconstruction is `5`. -/
example : Spec.Checked (Toy.suite 13) (1 : ZMod 13) (1 : ZMod 13) [7, 9, 11, 13] [3, 0] [0, 7] ∧
    lagrangeG1 (r := 13) .checked [(0 : ZMod 13), 7] ([3, 0].map (Spec.point 13)) 1 = .ok 5 := by
  have hch : Spec.Checked (Toy.suite 13) (1 : ZMod 13) (1 : ZMod 13) [7, 9, 11, 13] [3, 0] [0, 7] :=
    .cons ⟨13, 6, rfl, by unfold Spec.DecCheck; decide⟩ (.cons ⟨7, 1, rfl, by unfold Spec.DecCheck; decide⟩ .nil)
  obtain ⟨s, h1, -, -, h2⟩ := C79 .checked (Toy.suite 13) (Toy.pairLaws 13) (1 : ZMod 13) (1 : ZMod 13) 1 [7, 9, 11, 13]
    Toy.codeword52 (by decide) 5 Toy.interp52 [3, 0] [0, 7] ⟨by decide, by decide, by decide, by decide⟩ hch
  exact ⟨hch, by rw [h1, h2 (by decide) 5 (by decide)]⟩

/-- A value that does not match the commitment fails the check for every mask. -/
example : ∀ ρ, ¬ Spec.DecCheck (Toy.suite 13) (1 : ZMod 13) (1 : ZMod 13) ρ 7 8 := by
  unfold Spec.DecCheck; decide

/-- **C80** is false: after receiving the forged share, the parties 0 and 1 decrypt their slots and reconstruct `7` instead
of `5`. -/
theorem C80_false : ¬ C80_claim (Toy.suite 13) .checked Toy.cfg Toy.parties Toy.sk := by
  intro hc
  obtain ⟨sh, a', hcore, hrec⟩ := Toy.forged Toy.rng52
  have hrun : (Aggregator.new Toy.cfg Toy.parties).run (Toy.suite 13) .checked [.share Toy.rng52 sh] = a' := by
    show (Toy.agg.receiveShare (Toy.suite 13) .checked Toy.rng52 sh).2 = a'
    rw [hrec]
  obtain ⟨rng', tx, -, hagg, ha'⟩ := (receiveShare_ok_iff _ _ _ _ _ _).1 hrec
  obtain ⟨-, -, -, -, hadd, -, -⟩ := (aggregate_iff _ _ _ _).1 hagg
  have htx : a'.tx.core = ⟨[3, 27, 44, 65], [7, 9, 11, 13]⟩ := by
    rw [show (AggShare.ofShare Toy.agg.tx.degree Toy.agg.tx.numParticipants sh).core = sh.core from rfl, hcore] at hadd
    rw [ha']
    exact (Res.ok.inj (hadd.symm.trans (by rfl)))
  have hgs : Spec.weightedGs a'.tx.contributions = 5 := by
    have h := (C31 (Toy.suite 13) (Toy.pairLaws 13) Toy.cfg Toy.parties Toy.ids_lt (by decide) (by decide)
      [.share Toy.rng52 sh]).interp
    rw [hrun, htx] at h
    exact interpolatesTo_unique (by decide) (by decide) h Toy.interp52
  obtain ⟨s, h1, h2⟩ := hc [.share Toy.rng52 sh] [0, 1] [⟨8, 0⟩, ⟨9, 1⟩] (by rw [hrun, htx]; exact Toy.codeword52)
    ⟨by decide, by decide, by decide, by decide⟩ (by
      rw [hrun, htx]
      exact .cons ⟨rfl, by decide⟩ (.cons ⟨rfl, by decide⟩ .nil))
  have h3 : lagrangeG1 (r := 13) .checked [(8 : ZMod 13), 9] [1, 2] 1 = .ok ((C 7 + X : (ZMod 13)[X]).eval 0 • 1) :=
    C06_g1 .checked (C 7 + X) 1 (by compute_degree) (1 : ZMod 13) _ _ rfl (by decide) (by decide) (by decide) (by
      intro j hj _
      match j, hj with
      | 0, _ => simp; decide
      | 1, _ => simp; decide)
  have h4 : lagrangeG1 (r := 13) .checked [(8 : ZMod 13), 9] [1, 2] 1 = .ok s := h1
  rw [h3] at h4
  have h5 := Res.ok.inj h4
  rw [hrun, hgs, ← h5] at h2
  simp at h2
  revert h2
  decide

/-- Non-vacuity of C80_attack: the accepted share of party 2, attacked at the slot of party 0. -/
example : ∃ sh rng' s s', Toy.agg.shareVerify (Toy.suite 13) .checked Toy.rng52 sh = .ok rng' ∧
    lagrangeG1 (r := 13) .checked [(7 : ZMod 13), 9] [1, 2] 1 = .ok s ∧
    lagrangeG1 (r := 13) .checked [(8 : ZMod 13), 9] [1, 2] 1 = .ok s' ∧ s ≠ s' := by
  obtain ⟨sh, hcore, hid, -, h⟩ := Toy.accepted52
  obtain ⟨rng', h⟩ := h Toy.rng52
  obtain ⟨-, s, s', h1, h2, h3⟩ := C80_attack (Toy.suite 13) (Toy.pairLaws 13) .checked Toy.agg Toy.rng52 rng' sh h (by decide) 0
    (by rw [hid]; decide) (by decide) 3 (by rw [hcore]; decide) Toy.sk [0, 1] ⟨by decide, by decide, by decide, by decide⟩
    (by decide) [⟨7, 0⟩, ⟨9, 1⟩] [⟨8, 0⟩, ⟨9, 1⟩]
    (by rw [hcore]; exact .cons ⟨rfl, by decide⟩ (.cons ⟨rfl, by decide⟩ .nil))
    (by rw [hcore]; exact .cons ⟨rfl, by decide⟩ (.cons ⟨rfl, by decide⟩ .nil)) (by decide)
  exact ⟨sh, rng', s, s', h, h1, h2, h3⟩

/-- Non-vacuity of C80_partial: also after the forged share, the parties 1 and 3, whose slots are correct, reconstruct the
secret. -/
example : ∃ sh s, lagrangeG1 (r := 13) .checked [(9 : ZMod 13), 13] [2, 4] 1 = .ok s ∧
    (Toy.suite 13).pair s (1 : ZMod 13) = (Toy.suite 13).pair (1 : ZMod 13) (Spec.weightedGs
      ((Aggregator.new Toy.cfg Toy.parties).run (Toy.suite 13) .checked [.share Toy.rng52 sh]).tx.contributions) := by
  obtain ⟨sh, a', hcore, hrec⟩ := Toy.forged Toy.rng52
  have hrun : (Aggregator.new Toy.cfg Toy.parties).run (Toy.suite 13) .checked [.share Toy.rng52 sh] = a' := by
    show (Toy.agg.receiveShare (Toy.suite 13) .checked Toy.rng52 sh).2 = a'
    rw [hrec]
  obtain ⟨rng', tx, -, hagg, ha'⟩ := (receiveShare_ok_iff _ _ _ _ _ _).1 hrec
  obtain ⟨-, -, -, -, hadd, -, -⟩ := (aggregate_iff _ _ _ _).1 hagg
  have htx : a'.tx.core = ⟨[3, 27, 44, 65], [7, 9, 11, 13]⟩ := by
    rw [show (AggShare.ofShare Toy.agg.tx.degree Toy.agg.tx.numParticipants sh).core = sh.core from rfl, hcore] at hadd
    rw [ha']
    exact (Res.ok.inj (hadd.symm.trans (by rfl)))
  obtain ⟨s, h1, h2⟩ := C80_partial (Toy.suite 13) (Toy.pairLaws 13) Toy.cfg Toy.parties Toy.ids_lt (by decide) (by decide) Toy.sk
    [.share Toy.rng52 sh] [1, 3] [⟨9, 1⟩, ⟨13, 3⟩] (by rw [hrun, htx]; exact Toy.codeword52)
    ⟨by decide, by decide, by decide, by decide⟩
    (by rw [hrun, htx]; exact .cons ⟨rfl, by decide⟩ (.cons ⟨rfl, by decide⟩ .nil)) (by decide)
    (by
      rw [hrun, htx]
      intro i hi
      simp only [List.mem_cons, List.not_mem_nil, or_false] at hi
      rcases hi with rfl | rfl
      · exact ⟨27, 9, rfl, rfl, by decide⟩
      · exact ⟨65, 13, rfl, rfl, by decide⟩)
  exact ⟨sh, s, h1, h2⟩

end Verif
