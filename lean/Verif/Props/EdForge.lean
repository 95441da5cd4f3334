import Verif.Lemmas.Fork
import Verif.Props.Ed25519
import Mathlib.Data.Int.CardIntervalMod

/-!
# Forgers of EdDSA signatures (C109)

SHA-512 is a table of uniform 64-byte strings on a finite set `D` of inputs.  The forger knows the public key only.
-/

namespace Verif

open Finset EdCurve

/-- 64-byte strings as numbers. -/
def bytesEquiv (n : ℕ) : Bytes n ≃ Fin (256 ^ n) where
  toFun b := ⟨Codec.leVal b.1, by have := Codec.leVal_lt b.1; rwa [b.2] at this⟩
  invFun x := ⟨Codec.leBytes n x, Codec.length_leBytes _ _⟩
  left_inv b := Subtype.ext (by have := Codec.leBytes_leVal b.1; rwa [b.2] at this)
  right_inv x := Fin.ext (Codec.leVal_leBytes n x x.2)

instance (n : ℕ) : Fintype (Bytes n) := Fintype.ofEquiv _ (bytesEquiv n).symm

instance (n : ℕ) : Nonempty (Bytes n) := ⟨(bytesEquiv n).symm ⟨0, by positivity⟩⟩

theorem card_bytes_type (n : ℕ) : Fintype.card (Bytes n) = 256 ^ n := by
  rw [Fintype.card_congr (bytesEquiv n), Fintype.card_fin]

/-- At most `256^n / l + 1` strings give a residue modulo `l`. -/
theorem card_residue_le (n l c : ℕ) (hl : 0 < l) :
    (univ.filter fun b : Bytes n => Codec.leVal b.1 % l = c).card ≤ 256 ^ n / l + 1 := by
  have h1 : (univ.filter fun b : Bytes n => Codec.leVal b.1 % l = c).card ≤ ((range (256 ^ n)).filter fun x => x ≡ c [MOD l]).card := by
    refine card_le_card_of_injOn (fun b => Codec.leVal b.1) (fun b hb => ?_) (fun b _ b' _ h => ?_)
    · have hb := (mem_filter.1 hb).2
      simp only [coe_filter, mem_range, Set.mem_ofPred_eq]
      refine ⟨((bytesEquiv n) b).2, ?_⟩
      rw [Nat.ModEq, ← hb, Nat.mod_mod]
    · exact (bytesEquiv n).injective (Fin.ext h)
  refine h1.trans ?_
  rw [← Nat.count_eq_card_filter_range, Nat.count_modEq_card _ hl]
  split <;> omega

variable {E : Type} [AddCommGroup E] [DecidableEq E] {C : EdCurve E}
  (zs : List (List UInt8) → List (Bytes 64) → List (Bytes 32) → ℕ → ℕ)

/-- The curve with another hash function. -/
def Spec.withSha (C : EdCurve E) (sha : List UInt8 → Bytes 64) : EdCurve E := { C with sha512 := sha }

/-- What `verify` hashes. -/
def Spec.edInput (pk : PublicKey) (o : Digest × Signature) : List UInt8 := o.2.part1.1 ++ (pk.bytes.1 ++ o.1.bytes.1)

/-- Two accepted signatures with one `R` and different challenges give the secret scalar. -/
theorem ed_extract (hC : C.Laws) {sha sha' : List UInt8 → Bytes 64} {pk : PublicKey} {a : ℕ}
    (hpk : C.decompress pk.bytes = some (a • C.base)) {o o' : Digest × Signature} (h1 : o.2.part1 = o'.2.part1)
    (h : Signature.verify ((Spec.withSha C sha).ops zs) o.2 o.1 pk = .ok ())
    (h' : Signature.verify ((Spec.withSha C sha').ops zs) o'.2 o'.1 pk = .ok ())
    (hk : wide (sha (Spec.edInput pk o)) ≠ wide (sha' (Spec.edInput pk o'))) :
    Spec.extract (wide (sha (Spec.edInput pk o))) (wide (sha' (Spec.edInput pk o'))) (Codec.leVal o.2.part2.1)
      (Codec.leVal o'.2.part2.1) = (a : ZMod edL) := by
  obtain ⟨R, A, hR, hA, -, -, -, he⟩ := (C97_verify zs _ _ _).1 h
  obtain ⟨R', A', hR', hA', -, -, -, he'⟩ := (C97_verify zs _ _ _).1 h'
  have hR : C.decompress o.2.part1 = some R := hR
  have hR' : C.decompress o'.2.part1 = some R' := hR'
  have hA : C.decompress pk.bytes = some A := hA
  have hA' : C.decompress pk.bytes = some A' := hA'
  rw [← h1] at hR'
  obtain rfl := Option.some.inj (hR.symm.trans hR')
  obtain rfl := Option.some.inj (hpk.symm.trans hA)
  obtain rfl := Option.some.inj (hpk.symm.trans hA')
  have he : Codec.leVal o.2.part2.1 • C.base = R + wide (sha (Spec.edInput pk o)) • a • C.base := he
  have he' : Codec.leVal o'.2.part2.1 • C.base = R + wide (sha' (Spec.edInput pk o')) • a • C.base := he'
  revert hk he he'
  have hw := wide_lt (sha (Spec.edInput pk o))
  have hw' := wide_lt (sha' (Spec.edInput pk o'))
  generalize wide (sha (Spec.edInput pk o)) = k at *
  generalize wide (sha' (Spec.edInput pk o')) = k' at *
  generalize Codec.leVal o.2.part2.1 = s
  generalize Codec.leVal o'.2.part2.1 = s'
  intro hk he he'
  have key : (s + k' * a) • C.base = (s' + k * a) • C.base := by
    rw [add_smul, add_smul, mul_smul, mul_smul, he, he']
    abel
  have hz : ((s + k' * a : ℕ) : ZMod edL) = ((s' + k * a : ℕ) : ZMod edL) := by
    rw [ZMod.natCast_eq_natCast_iff']
    rw [← hC.mod_smul, ← hC.mod_smul (s' + k * a)] at key
    exact hC.smul_inj (Nat.mod_lt _ edL_pos) (Nat.mod_lt _ edL_pos) key
  push_cast at hz
  have hne : (k : ZMod edL) - k' ≠ 0 := by
    rw [sub_ne_zero, Ne, ZMod.natCast_eq_natCast_iff', Nat.mod_eq_of_lt hw, Nat.mod_eq_of_lt hw']
    exact hk
  rw [Spec.extract, div_eq_iff hne]
  linear_combination hz

open Classical in
/-- **C109**. Let a forger make `k` look-ups in a table for SHA-512 and output a digest and a signature, with `T` the tables for which
`verify` accepts. Run it again with the answer at the hashed input of its output replaced by a random one: then for the pairs `W`
the two outputs give the secret scalar, and `W / (N |tables|) ≥ ε (ε / (k + 1) - δ)` for `ε = T / |tables|`, `N = 256^64` and
`δ = (N / edL + 1) / N`. -/
theorem C109 (hC : C.Laws) (pk : PublicKey) (a : ℕ) (hpk : C.decompress pk.bytes = some (a • C.base)) (D : Finset (List UInt8))
    (sha : (D → Bytes 64) → List UInt8 → Bytes 64) (hsha : ∀ f (x : D), sha f x.1 = f x) (k : ℕ) (query : List (Bytes 64) → D)
    (out : List (Bytes 64) → Digest × Signature) (hD : ∀ l, Spec.edInput pk (out l) ∈ D) :
    let run : (D → Bytes 64) → Digest × Signature := fun f => out (Spec.answers query f k)
    let pt : (D → Bytes 64) → D := fun f => ⟨Spec.edInput pk (run f), hD _⟩
    let rerun : (D → Bytes 64) → Bytes 64 → Digest × Signature := fun f v => run (Function.update f (pt f) v)
    let T := univ.filter fun f : D → Bytes 64 => Signature.verify ((Spec.withSha C (sha f)).ops zs) (run f).2 (run f).1 pk = .ok ()
    let W := univ.filter fun p : (D → Bytes 64) × Bytes 64 =>
      Spec.extract (wide (p.1 (pt p.1))) (wide p.2) (Codec.leVal (run p.1).2.part2.1) (Codec.leVal (rerun p.1 p.2).2.part2.1) =
        (a : ZMod edL)
    256 ^ 64 * T.card ^ 2 ≤ (k + 1) * Fintype.card (D → Bytes 64) * (W.card + T.card * (256 ^ 64 / edL + 1)) := by
  intro run pt rerun T W
  have h := fork_crit query (fun l => (⟨Spec.edInput pk (out l), hD l⟩ : D)) k T
  rw [card_bytes_type] at h
  refine h.trans (Nat.mul_le_mul_left _ ?_)
  set V := univ.filter fun p : (D → Bytes 64) × Bytes 64 =>
        p.1 ∈ T ∧ Function.update p.1 (pt p.1) p.2 ∈ T ∧ pt (Function.update p.1 (pt p.1) p.2) = pt p.1 ∧ p.2 ≠ p.1 (pt p.1) with hV
  show V.card + T.card ≤ _
  -- pairs with the same residue
  set B := T.sigma fun f => univ.filter fun v : Bytes 64 => wide v = wide (f (pt f)) with hB
  have hBc : B.card ≤ T.card * (256 ^ 64 / edL + 1) := by
    rw [hB, card_sigma]
    refine (sum_le_card_nsmul _ _ _ fun f _ => ?_).trans (le_of_eq (by rw [smul_eq_mul]))
    exact card_residue_le 64 edL (wide (f (pt f))) edL_pos
  have hsplit : V.card + T.card ≤ W.card + B.card := by
    have h1 : (V.filter fun p => wide p.2 ≠ wide (p.1 (pt p.1))).card ≤ W.card := by
      refine card_le_card fun p hp => ?_
      rw [mem_filter, hV, mem_filter] at hp
      obtain ⟨⟨-, h1, h2, h3, -⟩, h5⟩ := hp
      refine mem_filter.2 ⟨mem_univ _, ?_⟩
      have h1 := (mem_filter.1 h1).2
      have h2 := (mem_filter.1 h2).2
      have hpt : Spec.edInput pk (run (Function.update p.1 (pt p.1) p.2)) = Spec.edInput pk (run p.1) := Subtype.mk.inj h3
      have e1 : sha p.1 (Spec.edInput pk (run p.1)) = p.1 (pt p.1) := hsha p.1 (pt p.1)
      have e2 : sha (Function.update p.1 (pt p.1) p.2) (Spec.edInput pk (rerun p.1 p.2)) = p.2 := by
        have := hsha (Function.update p.1 (pt p.1) p.2) (pt (Function.update p.1 (pt p.1) p.2))
        rw [h3, Function.update_self] at this
        exact (congrArg _ hpt).trans this
      have := ed_extract zs hC hpk (o := run p.1) (o' := rerun p.1 p.2)
        (Subtype.ext (List.append_inj_left hpt (by rw [(run _).2.part1.2, (run _).2.part1.2])).symm) h1 h2
        (by rw [e1, e2]; exact h5.symm)
      rwa [e1, e2] at this
    have h2 : (V.filter fun p => ¬ wide p.2 ≠ wide (p.1 (pt p.1))).card + T.card ≤ B.card := by
      have hdis : Disjoint ((V.filter fun p => ¬ wide p.2 ≠ wide (p.1 (pt p.1))).image fun p => (⟨p.1, p.2⟩ : (_ : D → Bytes 64) × Bytes 64))
          (T.image fun f => ⟨f, f (pt f)⟩) := by
        rw [disjoint_left]
        intro x hx hx'
        obtain ⟨p, hp, rfl⟩ := mem_image.1 hx
        obtain ⟨f, hf, he⟩ := mem_image.1 hx'
        rw [Sigma.mk.injEq] at he
        obtain ⟨rfl, he⟩ := he
        exact (mem_filter.1 (mem_filter.1 hp).1).2.2.2.2 (eq_of_heq he).symm
      have hc := card_union_of_disjoint hdis
      rw [card_image_of_injective, card_image_of_injective] at hc
      · rw [← hc]
        refine card_le_card fun x hx => ?_
        rw [hB]
        rcases mem_union.1 hx with hx | hx
        · obtain ⟨p, hp, rfl⟩ := mem_image.1 hx
          have hp := mem_filter.1 hp
          exact mem_sigma.2 ⟨(mem_filter.1 hp.1).2.1, mem_filter.2 ⟨mem_univ _, not_not.1 hp.2⟩⟩
        · obtain ⟨f, hf, rfl⟩ := mem_image.1 hx
          exact mem_sigma.2 ⟨hf, mem_filter.2 ⟨mem_univ _, rfl⟩⟩
      · intro f f' h
        exact (Sigma.mk.inj h).1
      · intro p p' h
        obtain ⟨h1, h2⟩ := Sigma.mk.inj h
        exact Prod.ext h1 (eq_of_heq h2)
    have h3 := card_filter_add_card_filter_not (s := V) fun p => wide p.2 ≠ wide (p.1 (pt p.1))
    omega
  exact hsplit.trans (Nat.add_le_add_left hBc _)

/-- **C109** (use). With the scalar of a key one can sign every digest for it. -/
theorem C109_use (hC : C.Laws) (pk : PublicKey) (a : ℕ) (ha : ¬ edL ∣ a) (hpk : C.decompress pk.bytes = some (a • C.base)) (d : Digest)
    (ρ : ℕ) (hρ : ¬ edL ∣ ρ) : Signature.verify (C.ops zs) (Spec.signWith C a ρ d pk) d pk = .ok () := by
  refine (C97_verify zs _ _ _).2 ?_
  have hs : ∀ n, Codec.leVal (Codec.leBytes 32 (n % edL)) = n % edL := fun n =>
    Codec.leVal_leBytes _ _ ((Nat.mod_lt _ edL_pos).trans edL_lt_bytes)
  refine ⟨ρ • C.base, a • C.base, hC.round _, hpk, ?_, ?_, ?_, ?_⟩
  · simp only [Spec.signWith, hs]
    exact Nat.mod_lt _ edL_pos
  · rw [Ne, hC.small_iff]; exact hρ
  · rw [Ne, hC.small_iff]; exact ha
  · simp only [Spec.signWith, hs, Spec.EdEquation]
    rw [ZMod.val_natCast, hC.mod_smul, add_smul, mul_smul, hC.mod_smul, add_comm]

/-- Non-vacuity of C109: someone who knows the scalar makes one look-up and is accepted for every table, so that `T` is the set of all
tables. -/
example (hC : C.Laws) (pk : PublicKey) (a : ℕ) (ha : ¬ edL ∣ a) (hpk : C.decompress pk.bytes = some (a • C.base)) (d : Digest) :
    ∃ (D : Finset (List UInt8)) (sha : (D → Bytes 64) → List UInt8 → Bytes 64) (query : List (Bytes 64) → D)
      (out : List (Bytes 64) → Digest × Signature), (∀ f (x : D), sha f x.1 = f x) ∧ (∀ l, Spec.edInput pk (out l) ∈ D) ∧
      ∀ f, Signature.verify ((Spec.withSha C (sha f)).ops zs) (out (Spec.answers query f 1)).2 (out (Spec.answers query f 1)).1 pk = .ok () := by
  let x := (C.compress (1 • C.base)).1 ++ (pk.bytes.1 ++ d.bytes.1)
  have hx : x ∈ ({x} : Finset (List UInt8)) := mem_singleton_self _
  let z : Bytes 64 := (bytesEquiv 64).symm ⟨0, by positivity⟩
  refine ⟨{x}, fun f _ => f ⟨x, hx⟩, fun _ => ⟨x, hx⟩, fun l => (d, Spec.signWith (Spec.withSha C fun _ => l.headD z) a 1 d pk), ?_, ?_, ?_⟩
  · rintro f ⟨y, hy⟩
    obtain rfl := mem_singleton.1 hy
    rfl
  · exact fun l => hx
  · intro f
    have hC' : (Spec.withSha C fun _ => f ⟨x, hx⟩).Laws := ⟨hC.order, hC.base_ne, hC.round⟩
    exact C109_use zs hC' pk a ha hpk d 1 (by decide +kernel)

/-- C109 on Ed25519, for a generated key. -/
example (sha₀ : List UInt8 → Bytes 64) (seed : Bytes 32) :
    ∃ pk : PublicKey, ∃ a, (ed25519 sha₀).decompress pk.bytes = some (a • (ed25519 sha₀).base) ∧ ¬ edL ∣ a :=
  ⟨(generateKeypair ((ed25519 sha₀).ops zs) seed).1, (ed25519 sha₀).scalarOf seed.1, (C100 sha₀).round _, not_dvd_clamp _⟩

end Verif
