import Verif.Props.Bind
import Verif.Props.Binding
import Verif.Props.Bounded
import Verif.Props.Field

/-!
# With the statement in the hash, no predetermined secret: C120

C76 is false of the code: after seeing the share of an honest dealer the others can choose their contributions so that the secret of the
accepted transcript is one they know. Here the same situation with the statement hashed (`Spec.dlkVerify`, C117): whoever manages this
computes the discrete logarithm of the honest dealer's `gs`.
-/

open Finset

namespace Verif

set_option linter.unusedSectionVars false

variable {r : ℕ} [Fact r.Prime] {G : Type} [AddCommGroup G] [DecidableEq G] [Module (ZMod r) G]

/-! ### The honest proof -/

/-- **C120** (the honest proof). Without the witness of `H` and for any challenge `c` and response `z`, the proof `(z g + c H, c, z)`
verifies once the table of the hash function is programmed at this one point. So an adversary against a transcript with an honest dealer
can be run by someone who does not know the dealer's secret. -/
theorem C120_honest (C : Curve G) (E : HashEnv r) (g H : G) (c z : ZMod r)
    (hH : hashToField (ε := NIZKError) E DLK.persona (Spec.dlkInput C g H (z • g + c • H)) = .ok c) :
    Spec.dlkVerify C E g H (z • g + c • H, c, z) = .ok () :=
  (boundDlk_iff ..).2 ⟨hH, rfl⟩

/-- The simulated proofs are distributed as the honest ones: for the dealer with secret `w`, nonce and challenge correspond to response
and challenge one to one. -/
theorem C120_simulated (g : G) (w c nonce : ZMod r) :
    ((nonce • g, c, nonce - w * c) : DLK.Proof r G) = ((nonce - w * c) • g + c • w • g, c, nonce - w * c) ∧
    Function.Bijective (fun p : ZMod r × ZMod r => (p.1, p.2 - w * p.1)) := by
  refine ⟨Prod.ext ?_ rfl, fun p q h => ?_, fun p => ⟨(p.1, p.2 + w * p.1), Prod.ext rfl (by ring)⟩⟩
  · simp only
    rw [smul_smul, ← add_smul]
    congr 1
    ring
  · simp only [Prod.mk.injEq] at h
    obtain ⟨h1, h2⟩ := h
    rw [h1] at h2
    exact Prod.ext h1 (by linear_combination h2)

/-! ### One proof -/

/-- What the second run of a prover with another answer gives: the logarithm computed from two proofs of the statement. -/
noncomputable def Spec.logOf (p p' : DLK.Proof r G) : ZMod r := (p.2.2 - p'.2.2) * (p'.2.1 - p.2.1)⁻¹

open Classical in
/-- For all but a `(k + 1) (d + 1) / r` fraction of the tables, a prover (that may also give up) either fails or reveals the logarithm of
its statement for more than `d` of the `r` answers at the point where its challenge stands. The hash input `inp` determines statement and
commitment and may depend on further data chosen by the prover. -/
theorem extract_gen {τ : Type} (inp : τ → G → G → List UInt8) (P : τ → Prop)
    (hinj : ∀ t s a t' s' a', P t → P t' → inp t s a = inp t' s' a' → s = s' ∧ a = a') (g : G) (D : Finset (List UInt8)) (env : (D → ZMod r) → HashEnv r)
    (henv : ∀ f (x : D), hashToField (ε := NIZKError) (env f) DLK.persona x.1 = .ok (f x))
    (k : ℕ) (query : List (ZMod r) → D) (out : List (ZMod r) → Option (τ × G × DLK.Proof r G)) (crit : List (ZMod r) → D)
    (hP : ∀ l t s p, out l = some (t, s, p) → P t)
    (hcrit : ∀ l t s p, out l = some (t, s, p) → (crit l).1 = inp t s p.1) (d : ℕ) :
    let run : (D → ZMod r) → Option (τ × G × DLK.Proof r G) := fun f => out (Spec.answers query f k)
    let rerun : (D → ZMod r) → ZMod r → Option (τ × G × DLK.Proof r G) := fun f c =>
      run (Function.update f (crit (Spec.answers query f k)) c)
    r * (univ.filter fun f : D → ZMod r => ∃ t s p, run f = some (t, s, p) ∧ hashToField (ε := NIZKError) (env f) DLK.persona (inp t s p.1) = .ok p.2.1 ∧
      p.2.2 • g + p.2.1 • s = p.1 ∧
      (univ.filter fun c : ZMod r => ∃ t' s' p', rerun f c = some (t', s', p') ∧ s = Spec.logOf p p' • g).card ≤ d).card ≤
        (k + 1) * (d + 1) * Fintype.card (D → ZMod r) := by
  intro run rerun
  set T := univ.filter fun f : D → ZMod r => ∃ t s p, run f = some (t, s, p) ∧ hashToField (ε := NIZKError) (env f) DLK.persona (inp t s p.1) = .ok p.2.1 ∧
      p.2.2 • g + p.2.1 • s = p.1 ∧
      (univ.filter fun c : ZMod r => ∃ t' s' p', rerun f c = some (t', s', p') ∧ s = Spec.logOf p p' • g).card ≤ d with hT
  have h := fork_crit query crit k T
  rw [ZMod.card] at h
  have hW : (univ.filter fun p : (D → ZMod r) × ZMod r => p.1 ∈ T ∧
      Function.update p.1 (crit (Spec.answers query p.1 k)) p.2 ∈ T ∧
      crit (Spec.answers query (Function.update p.1 (crit (Spec.answers query p.1 k)) p.2) k) = crit (Spec.answers query p.1 k) ∧
      p.2 ≠ p.1 (crit (Spec.answers query p.1 k))).card ≤ T.card * d := by
    refine le_trans (card_le_card (t := T.sigma (fun f => univ.filter fun c : ZMod r => ∃ t s p t' s' p', run f = some (t, s, p) ∧
      rerun f c = some (t', s', p') ∧ s = Spec.logOf p p' • g) |>.map ⟨fun x => (x.1, x.2), fun x y hxy => ?_⟩) ?_) ?_
    · cases x; cases y
      simp only [Prod.mk.injEq] at hxy
      obtain ⟨rfl, rfl⟩ := hxy
      rfl
    · intro p hp
      simp only [mem_filter, mem_univ, true_and, mem_map, mem_sigma] at hp ⊢
      obtain ⟨h1, h2, h3, h4⟩ := hp
      refine ⟨⟨p.1, p.2⟩, ⟨h1, ?_⟩, rfl⟩
      simp only [hT, mem_filter, mem_univ, true_and] at h1 h2
      obtain ⟨t, s, q, hr, e1, q1, -⟩ := h1
      obtain ⟨t', s', q', hr', e2, q2, -⟩ := h2
      refine ⟨t, s, q, t', s', q', hr, hr', ?_⟩
      have c1 := hcrit _ _ _ _ hr
      have c2 := hcrit _ _ _ _ hr'
      rw [h3] at c2
      obtain ⟨hs, hx⟩ := hinj _ _ _ _ _ _ (hP _ _ _ _ hr) (hP _ _ _ _ hr') (c1.symm.trans c2)
      rw [← c1, henv] at e1
      rw [← c2, henv, Function.update_self] at e2
      have e1 := Res.ok.inj e1
      have e2 := Res.ok.inj e2
      have hne : q'.2.1 - q.2.1 ≠ 0 := sub_ne_zero.2 (by rw [← e1, ← e2]; exact h4)
      rw [← hs, ← hx, ← q1] at q2
      rw [Spec.logOf, mul_comm, mul_smul, eq_inv_smul_iff₀ hne, sub_smul, sub_smul, sub_eq_sub_iff_add_eq_add, add_comm, q2]
    · rw [card_map, card_sigma]
      refine le_trans (sum_le_card_nsmul T _ d fun f hf => ?_) (by rw [smul_eq_mul])
      simp only [hT, mem_filter, mem_univ, true_and] at hf
      obtain ⟨t, s, q, hr, -, -, hd⟩ := hf
      refine le_trans (card_le_card fun c hc => ?_) hd
      simp only [mem_filter, mem_univ, true_and] at hc ⊢
      obtain ⟨t1, s1, q1, t', s', q', hr1, hr', he⟩ := hc
      obtain ⟨rfl, hrr⟩ := Prod.mk.inj (Option.some.inj (hr1.symm.trans hr))
      obtain ⟨rfl, rfl⟩ := Prod.mk.inj hrr
      exact ⟨t', s', q', hr', he⟩
  rcases Nat.eq_zero_or_pos T.card with h0 | h0
  · rw [h0]; simp
  · refine Nat.le_of_mul_le_mul_right ?_ h0
    calc r * T.card * T.card = r * T.card ^ 2 := by ring
      _ ≤ _ := h
      _ ≤ (k + 1) * Fintype.card (D → ZMod r) * (T.card * d + T.card) := Nat.mul_le_mul_left _ (Nat.add_le_add_right hW _)
      _ = _ := by ring

open Classical in
/-- For all but a `(k + 1) (d + 1) / r` fraction of the tables, a prover (that may also give up) either fails or reveals the logarithm of
its statement for more than `d` of the `r` answers at the point where its challenge stands. -/
theorem extract_one (C : Curve G) (hl : C.codec.Lawful) (g : G) (D : Finset (List UInt8)) (env : (D → ZMod r) → HashEnv r)
    (henv : ∀ f (x : D), hashToField (ε := NIZKError) (env f) DLK.persona x.1 = .ok (f x))
    (k : ℕ) (query : List (ZMod r) → D) (out : List (ZMod r) → Option (G × DLK.Proof r G)) (crit : List (ZMod r) → D)
    (hcrit : ∀ l s p, out l = some (s, p) → (crit l).1 = Spec.dlkInput C g s p.1) (d : ℕ) :
    let run : (D → ZMod r) → Option (G × DLK.Proof r G) := fun f => out (Spec.answers query f k)
    let rerun : (D → ZMod r) → ZMod r → Option (G × DLK.Proof r G) := fun f c =>
      run (Function.update f (crit (Spec.answers query f k)) c)
    r * (univ.filter fun f : D → ZMod r => ∃ s p, run f = some (s, p) ∧ Spec.dlkVerify C (env f) g s p = .ok () ∧
      (univ.filter fun c : ZMod r => ∃ s' p', rerun f c = some (s', p') ∧ s = Spec.logOf p p' • g).card ≤ d).card ≤
        (k + 1) * (d + 1) * Fintype.card (D → ZMod r) := by
  intro run rerun
  have h := extract_gen (τ := Unit) (fun _ => Spec.dlkInput C g) (fun _ => True) (fun _ s a _ s' a' _ _ h => by
    obtain ⟨h1, h2⟩ := hl.append_inj (List.append_cancel_left h)
    exact ⟨h1, hl.inj h2⟩) g D env henv k query (fun l => (out l).map fun x => ((), x)) crit (fun _ _ _ _ _ => trivial)
    (fun l t s p h => hcrit l s p (by simpa using h)) d
  simpa only [boundDlk_iff, Option.map_eq_some_iff, Prod.mk.injEq, Prod.exists, exists_eq_right_right, exists_eq_right, true_and,
    exists_const, and_assoc, exists_and_left, exists_and_right] using h

/-! ### All contributions of a transcript -/

open Classical in
/-- **C120** (extraction). An adversary makes `k` look-ups and then gives the contributions of a transcript, some of them with the `gs` of
an honest dealer, `H`, the others with any statements and proofs, all depending on the answers. For all but an `n (k + 1) (d + 1) / r`
fraction of the tables, every contribution that verifies and has another `gs` has a logarithm that is computed from a second run, and this
for more than `d` of the `r` new answers at its challenge. -/
theorem C120 (C : Curve G) (hl : C.codec.Lawful) (g H : G) (D : Finset (List UInt8)) (env : (D → ZMod r) → HashEnv r)
    (henv : ∀ f (x : D), hashToField (ε := NIZKError) (env f) DLK.persona x.1 = .ok (f x))
    (k : ℕ) (query : List (ZMod r) → D) (n : ℕ) (out : List (ZMod r) → BMap (SignedProof r G × UInt64))
    (hids : ∀ l i v, (out l).get i = some v → i < n) (crit : ℕ → List (ZMod r) → D)
    (hcrit : ∀ l i x w, (out l).get i = some (x, w) → x.decompProof.gs ≠ H →
      (crit i l).1 = Spec.dlkInput C g x.decompProof.gs x.decompProof.proof.1) (d : ℕ) :
    let run : (D → ZMod r) → BMap (SignedProof r G × UInt64) := fun f => out (Spec.answers query f k)
    let rerun : (D → ZMod r) → ℕ → ZMod r → BMap (SignedProof r G × UInt64) := fun f i c =>
      run (Function.update f (crit i (Spec.answers query f k)) c)
    r * (univ.filter fun f : D → ZMod r => ∃ i x w, (run f).get i = some (x, w) ∧ x.decompProof.gs ≠ H ∧
      Spec.dlkVerify C (env f) g x.decompProof.gs x.decompProof.proof = .ok () ∧
      (univ.filter fun c : ZMod r => ∃ x' w', (rerun f i c).get i = some (x', w') ∧
        x.decompProof.gs = Spec.logOf x.decompProof.proof x'.decompProof.proof • g).card ≤ d).card ≤
          n * ((k + 1) * (d + 1) * Fintype.card (D → ZMod r)) := by
  intro run rerun
  let o : ℕ → List (ZMod r) → Option (G × DLK.Proof r G) := fun i l => ((out l).get i).bind fun v =>
    if v.1.decompProof.gs = H then none else some (v.1.decompProof.gs, v.1.decompProof.proof)
  have ho : ∀ i l s p, o i l = some (s, p) ↔ ∃ x w, (out l).get i = some (x, w) ∧ x.decompProof.gs ≠ H ∧
      s = x.decompProof.gs ∧ p = x.decompProof.proof := by
    intro i l s p
    simp only [o]
    cases hg : (out l).get i with
    | none => simp
    | some v =>
      obtain ⟨x, w⟩ := v
      by_cases hx : x.decompProof.gs = H
      · simp only [Option.bind_some, hx, if_true]
        constructor
        · intro h; cases h
        · rintro ⟨x', w', h, h', -⟩
          obtain ⟨rfl, rfl⟩ := Prod.mk.inj (Option.some.inj h)
          exact absurd hx h'
      · simp only [Option.bind_some, if_neg hx, Option.some.injEq, Prod.mk.injEq]
        constructor
        · rintro ⟨rfl, rfl⟩; exact ⟨x, w, ⟨rfl, rfl⟩, hx, rfl, rfl⟩
        · rintro ⟨x', w', ⟨rfl, rfl⟩, -, rfl, rfl⟩; exact ⟨rfl, rfl⟩
  have hone : ∀ i, _ := fun i => extract_one C hl g D env henv k query (o i) (crit i) (fun l s p h => by
    obtain ⟨x, w, h1, h2, rfl, rfl⟩ := (ho i l s p).1 h
    exact hcrit l i x w h1 h2) d
  simp only at hone
  refine le_trans (Nat.mul_le_mul_left r (le_trans (card_le_card (t := (range n).biUnion fun i => univ.filter fun f : D → ZMod r =>
    ∃ s p, o i (Spec.answers query f k) = some (s, p) ∧ Spec.dlkVerify C (env f) g s p = .ok () ∧
      (univ.filter fun c : ZMod r => ∃ s' p',
        o i (Spec.answers query (Function.update f (crit i (Spec.answers query f k)) c) k) = some (s', p') ∧
        s = Spec.logOf p p' • g).card ≤ d) ?_) card_biUnion_le)) ?_
  · intro f hf
    simp only [mem_filter, mem_univ, true_and, mem_biUnion, mem_range] at hf ⊢
    obtain ⟨i, x, w, h1, h2, h3, h4⟩ := hf
    refine ⟨i, hids _ _ _ h1, x.decompProof.gs, x.decompProof.proof, (ho ..).2 ⟨x, w, h1, h2, rfl, rfl⟩, h3,
      le_trans (card_le_card fun c hc => ?_) h4⟩
    simp only [mem_filter, mem_univ, true_and] at hc ⊢
    obtain ⟨s', p', h5, h6⟩ := hc
    obtain ⟨x', w', h7, -, rfl, rfl⟩ := (ho ..).1 h5
    exact ⟨x', w', h7, h6⟩
  · rw [mul_sum]
    refine (sum_le_card_nsmul (range n) _ _ fun i _ => hone i).trans ?_
    rw [card_range, smul_eq_mul]

/-- The weight with which the point `H` occurs among the contributions. -/
def Spec.weightAt (H : G) (c : BMap (SignedProof r G × UInt64)) : ℕ :=
  (c.entries.map fun e => if e.2.1.decompProof.gs = H then e.2.2.toNat else 0).sum

/-- The weighted sum of the numbers `ℓ i` over the contributions with another `gs`. -/
def Spec.otherLogs (H : G) (ℓ : ℕ → ZMod r) (c : BMap (SignedProof r G × UInt64)) : ZMod r :=
  (c.entries.map fun e => if e.2.1.decompProof.gs = H then 0 else (e.2.2.toNat : ZMod r) * ℓ e.1).sum

theorem weightedGs_split (g H : G) (c : BMap (SignedProof r G × UInt64)) (ℓ : ℕ → ZMod r)
    (hℓ : ∀ i x w, c.get i = some (x, w) → x.decompProof.gs ≠ H → x.decompProof.gs = ℓ i • g) :
    Spec.weightedGs c = (Spec.weightAt H c : ZMod r) • H + Spec.otherLogs H ℓ c • g := by
  unfold Spec.weightedGs Spec.weightAt Spec.otherLogs
  have h' : ∀ e ∈ c.entries, e.2.1.decompProof.gs ≠ H → e.2.1.decompProof.gs = ℓ e.1 • g := by
    rintro ⟨i, x, w⟩ he
    exact hℓ i x w ((BMap.mem_entries c).1 he)
  generalize c.entries = l at h'
  induction l with
  | nil => simp
  | cons e l ih =>
    simp only [List.map_cons, List.sum_cons]
    rw [ih fun e he => h' e (List.mem_cons_of_mem _ he)]
    by_cases hx : e.2.1.decompProof.gs = H
    · rw [if_pos hx, if_pos hx, hx]
      push_cast
      module
    · rw [if_neg hx, if_neg hx, h' e (List.mem_cons_self ..) hx]
      push_cast
      module

theorem weightOf_pos (H : G) (c : BMap (SignedProof r G × UInt64)) {i : ℕ} {x : SignedProof r G} {w : UInt64}
    (h : c.get i = some (x, w)) (hx : x.decompProof.gs = H) (hw : w ≠ 0) : 0 < Spec.weightAt H c := by
  have hm : w.toNat ∈ c.entries.map fun e => if e.2.1.decompProof.gs = H then e.2.2.toNat else 0 :=
    List.mem_map.2 ⟨(i, x, w), (BMap.mem_entries c).2 h, by simp [hx]⟩
  have h0 : 0 < w.toNat := Nat.pos_of_ne_zero fun h => hw (UInt64.toNat_inj.1 (by simpa using h))
  exact lt_of_lt_of_le h0 (List.le_sum_of_mem hm)

theorem weightOf_le (H : G) (c : BMap (SignedProof r G × UInt64)) {n : ℕ} (hids : ∀ i v, c.get i = some v → i < n) :
    Spec.weightAt H c ≤ n * (2 ^ 64 - 1) := by
  refine le_trans (List.sum_le_card_nsmul _ (2 ^ 64 - 1) ?_) ?_
  · intro y hy
    obtain ⟨e, -, rfl⟩ := List.mem_map.1 hy
    split
    · have := e.2.2.toNat_lt
      omega
    · omega
  · rw [List.length_map, smul_eq_mul]
    exact Nat.mul_le_mul_right _ (entries_length_le c n hids)

/-- **C120** (the logarithm). Let the contributions of a transcript, of which one with non-zero weight has the `gs` of the honest dealer,
`H`, sum to `x g` for a known number `x` — for an accepted transcript, let its secret be `x`. From logarithms `ℓ i` of the other
contributions one gets the logarithm of `H`, and thus the honest dealer's secret, if `n` 64-bit weights do not add up to the group order. -/
theorem C120_log (g H : G) (c : BMap (SignedProof r G × UInt64)) {n : ℕ} (hids : ∀ i v, c.get i = some v → i < n)
    (hr : n * (2 ^ 64 - 1) < r) {x : ZMod r} (hx : Spec.weightedGs c = x • g)
    (hH : ∃ i s w, c.get i = some (s, w) ∧ s.decompProof.gs = H ∧ w ≠ 0)
    (ℓ : ℕ → ZMod r) (hℓ : ∀ i s w, c.get i = some (s, w) → s.decompProof.gs ≠ H → s.decompProof.gs = ℓ i • g) :
    H = ((x - Spec.otherLogs H ℓ c) * (Spec.weightAt H c : ZMod r)⁻¹) • g := by
  obtain ⟨i, s, w, h1, h2, h3⟩ := hH
  have hne : (Spec.weightAt H c : ZMod r) ≠ 0 := by
    rw [Ne, ZMod.natCast_eq_zero_iff]
    intro hd
    have := Nat.le_of_dvd (weightOf_pos H c h1 h2 h3) hd
    have := weightOf_le H c hids
    omega
  have hs := weightedGs_split g H c ℓ hℓ
  rw [hx] at hs
  rw [mul_comm, mul_smul, eq_inv_smul_iff₀ hne, sub_smul, hs, add_sub_cancel_right]

/-- The logarithm that the contributions of a run and a second one give for the contributor `i`. -/
noncomputable def Spec.logFrom (c c' : BMap (SignedProof r G × UInt64)) (i : ℕ) : ZMod r :=
  match c.get i, c'.get i with
  | some (x, _), some (x', _) => Spec.logOf x.decompProof.proof x'.decompProof.proof
  | _, _ => 0

open Classical in
/-- **C120** (predetermined secrets). The adversary outputs the contributions of a transcript, of which one with non-zero weight has the
`gs` of the honest dealer, `H`, and a number `x`. It wins when all proofs verify and the secret is `x`. For all but an
`n (k + 1) (d + 1) / r` fraction of the tables, when it wins then there are for every other contributor more than `d` answers so that the
second runs with any of these give the logarithm of `H`. -/
theorem C120_predetermined (C : Curve G) (hl : C.codec.Lawful) (g H : G) (D : Finset (List UInt8)) (env : (D → ZMod r) → HashEnv r)
    (henv : ∀ f (x : D), hashToField (ε := NIZKError) (env f) DLK.persona x.1 = .ok (f x))
    (k : ℕ) (query : List (ZMod r) → D) (n : ℕ) (hr : n * (2 ^ 64 - 1) < r)
    (out : List (ZMod r) → ZMod r × BMap (SignedProof r G × UInt64))
    (hids : ∀ l i v, (out l).2.get i = some v → i < n) (crit : ℕ → List (ZMod r) → D)
    (hcrit : ∀ l i x w, (out l).2.get i = some (x, w) → x.decompProof.gs ≠ H →
      (crit i l).1 = Spec.dlkInput C g x.decompProof.gs x.decompProof.proof.1) (d : ℕ) :
    let run : (D → ZMod r) → ZMod r × BMap (SignedProof r G × UInt64) := fun f => out (Spec.answers query f k)
    let rerun : (D → ZMod r) → ℕ → ZMod r → ZMod r × BMap (SignedProof r G × UInt64) := fun f i c =>
      run (Function.update f (crit i (Spec.answers query f k)) c)
    let wins : (D → ZMod r) → Prop := fun f =>
      (∀ i x w, (run f).2.get i = some (x, w) →
        Spec.dlkVerify C (env f) g x.decompProof.gs x.decompProof.proof = .ok ()) ∧
      (∃ i s w, (run f).2.get i = some (s, w) ∧ s.decompProof.gs = H ∧ w ≠ 0) ∧ Spec.weightedGs (run f).2 = (run f).1 • g
    let solved : (D → ZMod r) → Prop := fun f => ∃ A : ℕ → Finset (ZMod r), (∀ i, d < (A i).card ∨
        ∀ x w, (run f).2.get i = some (x, w) → x.decompProof.gs = H) ∧
      ∀ c : ℕ → ZMod r, (∀ i, c i ∈ A i ∨ ∀ x w, (run f).2.get i = some (x, w) → x.decompProof.gs = H) →
        H = (((run f).1 - Spec.otherLogs H (fun i => Spec.logFrom (run f).2 (rerun f i (c i)).2 i) (run f).2) *
          (Spec.weightAt H (run f).2 : ZMod r)⁻¹) • g
    r * (univ.filter fun f : D → ZMod r => wins f ∧ ¬ solved f).card ≤ n * ((k + 1) * (d + 1) * Fintype.card (D → ZMod r)) := by
  intro run rerun wins solved
  refine le_trans (Nat.mul_le_mul_left r (card_le_card ?_))
    (C120 C hl g H D env henv k query n (fun l => (out l).2) hids crit hcrit d)
  intro f hf
  simp only [mem_filter, mem_univ, true_and] at hf ⊢
  obtain ⟨⟨hv, hH, hx⟩, hs⟩ := hf
  by_contra hno
  push Not at hno
  refine hs ⟨fun i => univ.filter fun c : ZMod r => ∃ x w x' w', (run f).2.get i = some (x, w) ∧
    (rerun f i c).2.get i = some (x', w') ∧
      x.decompProof.gs = Spec.logOf x.decompProof.proof x'.decompProof.proof • g, fun i => ?_, fun c hc => ?_⟩
  · by_cases hi : ∀ x w, (run f).2.get i = some (x, w) → x.decompProof.gs = H
    · exact Or.inr hi
    · push Not at hi
      obtain ⟨x, w, h1, h2⟩ := hi
      refine Or.inl (lt_of_lt_of_le (hno i x w h1 h2 (hv i x w h1)) (card_le_card fun c hc => ?_))
      simp only [mem_filter, mem_univ, true_and] at hc ⊢
      obtain ⟨x', w', h3, h4⟩ := hc
      exact ⟨x, w, x', w', h1, h3, h4⟩
  · refine C120_log g H (run f).2 (hids _) hr hx hH _ fun i s w h1 h2 => ?_
    have := (hc i).resolve_right fun h => h2 (h s w h1)
    simp only [mem_filter, mem_univ, true_and] at this
    obtain ⟨x, w0, x', w', h3, h4, h5⟩ := this
    obtain ⟨rfl, rfl⟩ := Prod.mk.inj (Option.some.inj (h3.symm.trans h1))
    rw [Spec.logFrom, h3, h4]
    exact h5

/-! ### An adversary that wins always -/

/-- A hash environment that looks challenges up in a table; 0 elsewhere. -/
def Toy.bigTable (r : ℕ) (D : Finset (List UInt8)) (f : D → ZMod r) : HashEnv r where
  stream _ msg j := (Codec.leBytes 32 (if h : msg ∈ D then (f ⟨msg, h⟩).val else 0)).getD j 0
  frSize := 32
  frFromRandom b := some (Codec.leVal b : ZMod r)

theorem Toy.bigTable_eq {ε : Type} {persona : List UInt8} (hp : persona.length ≤ 8) (hr : r ≤ 256 ^ 32) (D : Finset (List UInt8))
    (f : D → ZMod r) (msg : List UInt8) :
    hashToField (ε := ε) (Toy.bigTable r D f) persona msg = .ok (if h : msg ∈ D then f ⟨msg, h⟩ else 0) := by
  unfold hashToField
  rw [if_neg (by omega)]
  have h : ∃ k, ((fun k => (Toy.bigTable r D f).frFromRandom (block ((Toy.bigTable r D f).stream (padPersona persona) msg)
      (Toy.bigTable r D f).frSize k)) k).isSome := ⟨0, rfl⟩
  show firstSome _ = _
  unfold firstSome
  rw [dif_pos h]
  congr 1
  have h0 : Nat.find h = 0 := (Nat.find_eq_zero h).2 rfl
  simp only [h0]
  show ((Codec.leVal (block _ 32 0) : ℕ) : ZMod r) = _
  have hb : block ((Toy.bigTable r D f).stream (padPersona persona) msg) 32 0 =
      Codec.leBytes 32 (if h : msg ∈ D then (f ⟨msg, h⟩).val else 0) := by
    refine List.ext_getElem (by simp [block]) fun i h1 h2 => ?_
    simp only [block, List.getElem_map, List.getElem_range, zero_mul, zero_add, Toy.bigTable]
    rw [List.getD_eq_getElem?_getD, List.getElem?_eq_getElem h2, Option.getD_some]
  rw [hb]
  split
  · rw [Codec.leVal_leBytes _ _ (lt_of_lt_of_le (ZMod.val_lt _) hr)]
    simp
  · rw [Codec.leVal_leBytes _ _ (by positivity)]
    simp

/-- Non-vacuity of C120, in a group of the order of BLS12-381: the honest dealer's `gs` is 5, its proof `(2, 0, 2)`; the adversary adds
twice the contribution 7, of which it knows the logarithm, with an honest proof made with one look-up. All hypotheses are met, and it wins
with the secret 19 for every table. -/
example : ∃ (D : Finset (List UInt8)) (query : List (ZMod blsR) → D) (crit : ℕ → List (ZMod blsR) → D)
    (out : List (ZMod blsR) → ZMod blsR × BMap (SignedProof blsR (ZMod blsR) × UInt64)),
    (Toy.curve blsR).codec.Lawful ∧ 2 * (2 ^ 64 - 1) < blsR ∧
    (∀ f (x : D), hashToField (ε := NIZKError) (Toy.bigTable blsR D f) DLK.persona x.1 = .ok (f x)) ∧
    (∀ l i v, (out l).2.get i = some v → i < 2) ∧
    (∀ l i x w, (out l).2.get i = some (x, w) → x.decompProof.gs ≠ 5 →
      (crit i l).1 = Spec.dlkInput (Toy.curve blsR) 1 x.decompProof.gs x.decompProof.proof.1) ∧
    ∀ f, let run := out (Spec.answers query f 1)
      (∀ i x w, run.2.get i = some (x, w) →
        Spec.dlkVerify (Toy.curve blsR) (Toy.bigTable blsR D f) 1 x.decompProof.gs x.decompProof.proof = .ok ()) ∧
      (∃ i s w, run.2.get i = some (s, w) ∧ s.decompProof.gs = 5 ∧ w ≠ 0) ∧ Spec.weightedGs run.2 = run.1 • (1 : ZMod blsR) := by
  have hl : (Toy.curve blsR).codec.Lawful := (Toy.codecLaws blsR C61_size.2).c2
  have hr : blsR ≤ 256 ^ 32 := by unfold blsR; norm_num
  let y := Spec.dlkInput (Toy.curve blsR) (1 : ZMod blsR) 7 3
  have hy : y ∈ ({y} : Finset (List UInt8)) := Finset.mem_singleton_self _
  have h57 : (5 : ZMod blsR) ≠ 7 := by
    intro h
    have h2 : ((2 : ℕ) : ZMod blsR) = 0 := by
      push_cast
      linear_combination -h
    rw [ZMod.natCast_eq_zero_iff] at h2
    exact absurd (Nat.le_of_dvd (by norm_num) h2) (by unfold blsR; norm_num)
  let z : Signature := ⟨⟨List.replicate 32 0, rfl⟩, ⟨List.replicate 32 0, rfl⟩⟩
  let e0 : SignedProof blsR (ZMod blsR) := ⟨⟨(2, 0, 2), 5⟩, z⟩
  let e1 : List (ZMod blsR) → SignedProof blsR (ZMod blsR) := fun l => ⟨⟨(3, l.headD 0, 3 - 7 * l.headD 0), 7⟩, z⟩
  let c : List (ZMod blsR) → BMap (SignedProof blsR (ZMod blsR) × UInt64) := fun l => BMap.ofList [(0, (e0, 1)), (1, (e1 l, 2))]
  have hc : ∀ l, (c l).entries = [(0, (e0, 1)), (1, (e1 l, 2))] := fun l => rfl
  have hget : ∀ l i x w, (c l).get i = some (x, w) → i = 0 ∧ x = e0 ∧ w = 1 ∨ i = 1 ∧ x = e1 l ∧ w = 2 := by
    intro l i x w h
    have := (BMap.mem_entries _).2 h
    rw [hc] at this
    simpa using this
  refine ⟨{y}, fun _ => ⟨y, hy⟩, fun _ _ => ⟨y, hy⟩, fun l => (19, c l), hl, by unfold blsR; norm_num, fun f x => ?_, fun l i v h => ?_,
    fun l i x w h h5 => ?_, fun f => ⟨fun i x w h => ?_, ⟨0, e0, 1, rfl, rfl, by decide⟩, ?_⟩⟩
  · rw [Toy.bigTable_eq (by decide) hr, dif_pos x.2]
  · rcases hget l i v.1 v.2 h with ⟨rfl, -⟩ | ⟨rfl, -⟩ <;> omega
  · rcases hget l i x w h with ⟨-, rfl, -⟩ | ⟨-, rfl, -⟩
    · exact absurd rfl h5
    · rfl
  · rw [boundDlk_iff, Toy.bigTable_eq (by decide) hr]
    rcases hget _ i x w h with ⟨-, rfl, -⟩ | ⟨-, rfl, -⟩
    · have hno : Spec.dlkInput (Toy.curve blsR) (1 : ZMod blsR) e0.decompProof.gs e0.decompProof.proof.1 ∉ ({y} : Finset (List UInt8)) :=
        fun hm => h57 (hl.append_inj (List.append_cancel_left (Finset.mem_singleton.1 hm))).1
      rw [dif_neg hno]
      exact ⟨rfl, by simp [e0]⟩
    · rw [dif_pos hy]
      refine ⟨rfl, ?_⟩
      simp only [e1, smul_eq_mul]
      ring
  · show Spec.weightedGs (c _) = _
    rw [Spec.weightedGs, hc]
    simp only [List.map_cons, List.map_nil, List.sum_cons, List.sum_nil, e0, e1, smul_eq_mul]
    rw [show (1 : UInt64).toNat = 1 from rfl, show (2 : UInt64).toNat = 2 from rfl]
    push_cast
    norm_num

end Verif
