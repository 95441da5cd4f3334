import Verif.Lemmas.EdLoops

/-!
# The functions of `ed25519_dalek` in coordinates
-/

namespace Verif

open WeierstrassCurve EdProj
open Spec (Rep)

namespace EdProj

theorem edL_lt : edL < 2 ^ 255 := by decide +kernel

theorem edL_pos : 0 < edL := by decide +kernel

theorem wide_lt (h : Bytes 64) : EdCurve.wide h < 2 ^ 255 := (Nat.mod_lt _ edL_pos).trans edL_lt

theorem clamp_lt (v : ℕ) : EdCurve.clamp v < 2 ^ 255 := by
  rw [EdCurve.clamp]
  have : v % 2 ^ 254 < 2 ^ 254 := Nat.mod_lt _ (by norm_num)
  have : v % 2 ^ 254 / 8 * 8 ≤ v % 2 ^ 254 := Nat.div_mul_le_self _ _
  omega

theorem mapM_some {α : Type} (l : List α) : (l.map some).mapM (id : Option α → Option α) = some l := by
  induction l with
  | nil => rfl
  | cons a l ih =>
    rw [List.map_cons, List.mapM_cons, ih]
    rfl

theorem mapM_none {α : Type} (l : List (Option α)) (h : none ∈ l) : l.mapM (id : Option α → Option α) = none := by
  induction l with
  | nil => simp at h
  | cons a l ih =>
    rw [List.mapM_cons]
    cases a with
    | none => rfl
    | some a =>
      rw [ih (by simpa using h)]
      rfl

variable {F : Type} [Add F] [Sub F] [Neg F] [Mul F] [Zero F] [One F] [FE F]
variable {E : Type} [AddCommGroup E] [DecidableEq E] {C : EdCurve E} {Den : Ext F → E → Prop}

/-- What the lemmas on the coordinates say, for any group. -/
structure Coords (C : EdCurve E) (Den : Ext F → E → Prop) : Prop where
  order : edL • C.base = 0
  base : Den Ext.base C.base
  neg : ∀ {e P}, Den e P → Den e.neg (-P)
  eq_iff : ∀ {e f P Q}, Den e P → Den f Q → (e.eq f = true ↔ P = Q)
  isId_iff : ∀ {e P}, Den e P → (e.isId = true ↔ P = 0)
  small : ∀ {e P}, Den e P → e.isSmallOrder = EdCurve.smallOrder P
  compress : ∀ {e P}, Den e P → e.compress = C.compress P
  dec : ∀ b, (∃ e P, Ext.decompress b = some e ∧ C.decompress b = some P ∧ Den e P) ∨
    ((Ext.decompress b : Option (Ext F)) = none ∧ C.decompress b = none)
  mulBase : ∀ {x}, x < 2 ^ 255 → Den (mulBase x) (x • C.base)
  doubleBase : ∀ {a b A P}, a < 2 ^ 255 → b < 2 ^ 255 → Den A P → Den (doubleBase a A b) (a • P + b • C.base)
  multi : ∀ {l : List (ℕ × Ext F)} {l' : List (ℕ × E)}, List.Forall₂ (fun p q => p.1 = q.1 ∧ p.1 < 2 ^ 255 ∧ Den p.2 q.2) l l' →
    Den (straus l) (l'.map fun p => p.1 • p.2).sum ∧ Den (pippenger l) (l'.map fun p => p.1 • p.2).sum

namespace Coords

theorem isSome (H : Coords C Den) (b : Bytes 32) : (Ext.decompress b : Option (Ext F)).isSome = (C.decompress b).isSome := by
  rcases H.dec b with ⟨e, P, h1, h2, -⟩ | ⟨h1, h2⟩ <;> rw [h1, h2] <;> rfl

theorem strict (H : Coords C Den) (pk : Bytes 32) (msg : List UInt8) (sig : Bytes 64) :
    EdProj.strict F C.sha512 pk msg sig = C.strict pk msg sig := by
  unfold EdProj.strict EdCurve.strict EdCurve.challenge
  split
  · rename_i hs
    rcases H.dec (EdCurve.fst32 sig) with ⟨R, R', h1, h2, hR⟩ | ⟨h1, h2⟩
    · rcases H.dec pk with ⟨A, A', h3, h4, hA⟩ | ⟨h3, h4⟩
      · rw [h1, h2, h3, h4]
        simp only [H.small hR, H.small hA]
        split
        · rfl
        · rw [Bool.eq_iff_iff, H.eq_iff (H.doubleBase (wide_lt _) (hs.trans edL_lt) (H.neg hA)) hR, decide_eq_true_iff, neg_nsmul,
            neg_add_eq_sub]
      · rw [h1, h2, h3, h4]
    · rw [h1, h2]
  · rfl

omit [Add F] [Sub F] [Neg F] [Mul F] [Zero F] [One F] [FE F] [AddCommGroup E] [DecidableEq E] in
theorem forall₂_zip (ss : List ℕ) {ps : List (Ext F)} {Ps : List E} (h : List.Forall₂ Den ps Ps) (hs : ∀ s ∈ ss, s < 2 ^ 255) :
    List.Forall₂ (fun p q => p.1 = q.1 ∧ p.1 < 2 ^ 255 ∧ Den p.2 q.2) (ss.zip ps) (ss.zip Ps) := by
  induction h generalizing ss with
  | nil => simp
  | cons h1 _ ih =>
    cases ss with
    | nil => simp
    | cons s ss => exact .cons ⟨rfl, hs s (by simp), h1⟩ (ih ss fun t ht => hs t (List.mem_cons_of_mem _ ht))

open EdCurve in
theorem batch_cases (H : Coords C Den) (z : ℕ → ℕ) (vs : List Vote) (i : ℕ) :
    (∃ (rs as : List (Ext F)) (Rs As : List E), (vs.map fun v => Ext.decompress (fst32 v.2.1)) = rs.map some ∧
      (vs.map fun v => Ext.decompress v.2.2) = as.map some ∧ List.Forall₂ Den rs Rs ∧ List.Forall₂ Den as As ∧
      C.batchSum z i vs = some (
        ((((List.range' i vs.length).map z).zip Rs).map fun p => p.1 • p.2).sum +
        (((((vs.map fun v => wide (C.sha512 ((fst32 v.2.1).1 ++ (v.2.2.1 ++ v.1)))).zip ((List.range' i vs.length).map z)).map
          fun p => p.1 * p.2 % edL).zip As).map fun p => p.1 • p.2).sum -
        ((((vs.map fun v => v.2.1).zip ((List.range' i vs.length).map z)).map fun p => p.2 * sOf p.1 % edL).sum) • C.base)) ∨
    ((∃ v ∈ vs, (Ext.decompress (fst32 v.2.1) : Option (Ext F)) = none ∨ (Ext.decompress v.2.2 : Option (Ext F)) = none) ∧ C.batchSum z i vs = none) := by
  induction vs generalizing i with
  | nil => exact .inl ⟨[], [], [], [], rfl, rfl, .nil, .nil, by simp [batchSum]⟩
  | cons v vs ih =>
    rw [batchSum, batchTerm, challenge]
    rcases H.dec (fst32 v.2.1) with ⟨R, R', h1, h2, hR⟩ | ⟨h1, h2⟩
    · rcases H.dec v.2.2 with ⟨A, A', h3, h4, hA⟩ | ⟨h3, h4⟩
      · rw [h2, h4]
        rcases ih (i + 1) with ⟨rs, as, Rs, As, g1, g2, g3, g4, g5⟩ | ⟨⟨w, hw, hw'⟩, g⟩
        · refine .inl ⟨R :: rs, A :: as, R' :: Rs, A' :: As, ?_, ?_, .cons hR g3, .cons hA g4, ?_⟩
          · rw [List.map_cons, List.map_cons, g1, h1]
          · rw [List.map_cons, List.map_cons, g2, h3]
          · rw [g5]
            simp only [List.length_cons, List.range'_succ, List.map_cons, List.zip_cons_cons, List.sum_cons, add_nsmul,
              Option.bind_eq_bind, Option.bind_some, Option.some_inj]
            abel
        · refine .inr ⟨⟨w, List.mem_cons_of_mem _ hw, hw'⟩, ?_⟩
          rw [g]
          rfl
      · exact .inr ⟨⟨v, by simp, .inr h3⟩, by rw [h2, h4]; rfl⟩
    · exact .inr ⟨⟨v, by simp, .inl h1⟩, by rw [h2]; rfl⟩

theorem neg_mod_smul (H : Coords C Den) (b : ℕ) : ((edL - b % edL) % edL) • C.base = -(b • C.base) := by
  have hmod : ∀ n : ℕ, (n % edL) • C.base = n • C.base := by
    intro n
    conv_rhs => rw [← Nat.div_add_mod n edL, add_nsmul, mul_comm, mul_nsmul', H.order, nsmul_zero, zero_add]
  rw [hmod, eq_neg_iff_add_eq_zero, ← hmod b, ← add_nsmul, Nat.sub_add_cancel (Nat.mod_lt _ edL_pos).le, H.order]

open EdCurve in
theorem batch (H : Coords C Den) (z : ℕ → ℕ) (hz : ∀ i, z i < 2 ^ 255) (ms : List (List UInt8)) (ss : List (Bytes 64))
    (ks : List (Bytes 32)) : EdProj.batch F C.sha512 z ms ss ks = C.batch z ms ss ks := by
  unfold EdProj.batch EdCurve.batch
  split
  · rename_i hlen
    split
    · simp only []
      have hvl : (ms.zip (ss.zip ks)).length = ss.length := by
        rw [List.length_zip, List.length_zip]
        omega
      have hss : ss = (ms.zip (ss.zip ks)).map fun v => v.2.1 := by
        have : (fun v : List UInt8 × Bytes 64 × Bytes 32 => v.2.1) = Prod.fst ∘ Prod.snd := rfl
        rw [this, ← List.map_map, List.map_snd_zip (by rw [List.length_zip]; omega), List.map_fst_zip (by omega)]
      have hks : ks = (ms.zip (ss.zip ks)).map fun v => v.2.2 := by
        have : (fun v : List UInt8 × Bytes 64 × Bytes 32 => v.2.2) = Prod.snd ∘ Prod.snd := rfl
        rw [this, ← List.map_map, List.map_snd_zip (by rw [List.length_zip]; omega), List.map_snd_zip (by omega)]
      have hR : (ss.map fun s => (Ext.decompress (fst32 s) : Option (Ext F))) = (ms.zip (ss.zip ks)).map fun v => Ext.decompress (fst32 v.2.1) := by
        have h := congrArg (List.map fun s => (Ext.decompress (fst32 s) : Option (Ext F))) hss
        simpa only [List.map_map, Function.comp_def] using h
      have hA : ks.map (Ext.decompress : _ → Option (Ext F)) = (ms.zip (ss.zip ks)).map fun v => Ext.decompress v.2.2 := by
        have h := congrArg (List.map (Ext.decompress : _ → Option (Ext F))) hks
        simpa only [List.map_map, Function.comp_def] using h
      have hS : ss.zip ((List.range ss.length).map z) = ((ms.zip (ss.zip ks)).map fun v => v.2.1).zip ((List.range ss.length).map z) := by
        rw [← hss]
      rw [hR, hA, hS]
      have hcase := H.batch_cases z (ms.zip (ss.zip ks)) 0
      rw [hvl, ← List.range_eq_range'] at hcase
      have hzl : ((List.range ss.length).map z).length = (ms.zip (ss.zip ks)).length := by rw [hvl]; simp
      have hzb : ∀ s ∈ (List.range ss.length).map z, s < 2 ^ 255 := by
        intro s hs
        obtain ⟨i, -, rfl⟩ := List.mem_map.1 hs
        exact hz i
      clear hvl hss hks hR hA hS hlen
      generalize ms.zip (ss.zip ks) = vs at *
      generalize (List.range ss.length).map z = zs at *
      have hhb : ∀ s ∈ ((vs.map fun v => wide (C.sha512 ((fst32 v.2.1).1 ++ (v.2.2.1 ++ v.1)))).zip zs).map (fun p => p.1 * p.2 % edL),
          s < 2 ^ 255 := by
        intro s hs
        obtain ⟨p, -, rfl⟩ := List.mem_map.1 hs
        exact (Nat.mod_lt _ edL_pos).trans edL_lt
      generalize ((vs.map fun v => wide (C.sha512 ((fst32 v.2.1).1 ++ (v.2.2.1 ++ v.1)))).zip zs).map (fun p => p.1 * p.2 % edL) = zh at *
      generalize (((vs.map fun v => v.2.1).zip zs).map fun p => p.2 * sOf p.1 % edL).sum = b at *
      unfold multiscalar
      rcases hcase with ⟨rs, as, Rs, As, g1, g2, g3, g4, g5⟩ | ⟨⟨v, hv, hv'⟩, g⟩
      · have hpts : (some (Ext.base : Ext F) :: ((vs.map fun v => Ext.decompress (fst32 v.2.1)) ++ vs.map fun v => Ext.decompress v.2.2)) =
            (Ext.base :: (rs ++ as)).map some := by rw [g1, g2, List.map_cons, List.map_append]
        have hrl : rs.length = vs.length := by simpa using (congrArg List.length g1).symm
        rw [hpts, mapM_some, g5]
        have hF : List.Forall₂ Den (Ext.base :: (rs ++ as)) (C.base :: (Rs ++ As)) := .cons H.base (List.rel_append g3 g4)
        have hP := forall₂_zip ((edL - b % edL) % edL :: (zs ++ zh)) hF (by
          intro s hs
          rcases List.mem_cons.1 hs with rfl | hs
          · exact (Nat.mod_lt _ edL_pos).trans edL_lt
          · rcases List.mem_append.1 hs with hs | hs
            · exact hzb s hs
            · exact hhb s hs)
        have hsum : ((((edL - b % edL) % edL :: (zs ++ zh)).zip (C.base :: (Rs ++ As))).map fun p => p.1 • p.2).sum =
            ((zs.zip Rs).map fun p => p.1 • p.2).sum + ((zh.zip As).map fun p => p.1 • p.2).sum - b • C.base := by
          rw [List.zip_cons_cons, List.map_cons, List.sum_cons, H.neg_mod_smul,
            List.zip_append (by rw [hzl, ← hrl]; exact g3.length_eq), List.map_append, List.sum_append]
          abel
        rw [Bool.eq_iff_iff, decide_eq_true_iff, Option.some_inj, ← hsum]
        simp only [Option.bind_eq_bind, Option.bind_some]
        split
        · exact H.isId_iff (H.multi hP).1
        · exact H.isId_iff (H.multi hP).2
      · have hnone : none ∈ (some (Ext.base : Ext F) :: ((vs.map fun v => Ext.decompress (fst32 v.2.1)) ++ vs.map fun v => Ext.decompress v.2.2)) := by
          refine List.mem_cons_of_mem _ (List.mem_append.2 ?_)
          rcases hv' with h | h
          · exact .inl (List.mem_map.2 ⟨v, hv, h⟩)
          · exact .inr (List.mem_map.2 ⟨v, hv, h⟩)
        rw [mapM_none _ hnone, g]
        rfl
    · rfl
  · rfl

theorem ops (H : Coords C Den) (zs : List (List UInt8) → List (Bytes 64) → List (Bytes 32) → ℕ → ℕ)
    (hz : ∀ ms ss ks i, zs ms ss ks i < 2 ^ 255) : EdProj.ops F C.sha512 zs = C.ops zs := by
  have hmul : ∀ {x}, x < 2 ^ 255 → (EdProj.mulBase x : Ext F).compress = C.compress (x • C.base) := fun h => H.compress (H.mulBase h)
  have e1 : (fun seed : Bytes 32 => (EdProj.mulBase (EdCurve.clamp (Codec.leVal ((C.sha512 seed.1).1.take 32))) : Ext F).compress) =
      fun seed => C.compress (C.scalarOf seed.1 • C.base) := funext fun seed => hmul (clamp_lt _)
  have e2 : (fun b : Bytes 32 => (Ext.decompress b : Option (Ext F)).isSome) = fun b => (C.decompress b).isSome := funext H.isSome
  have e3 : (fun b : Bytes 64 => (Ext.decompress (EdCurve.snd32 b) : Option (Ext F)).isSome) = fun b => (C.decompress (EdCurve.snd32 b)).isSome :=
    funext fun b => H.isSome _
  have e4 : EdProj.strict F C.sha512 = C.strict := by
    funext pk msg sig
    exact H.strict pk msg sig
  have e5 : (fun ms ss ks => EdProj.batch F C.sha512 (zs ms ss ks) ms ss ks) = fun ms ss ks => C.batch (zs ms ss ks) ms ss ks := by
    funext ms ss ks
    exact H.batch _ (hz ms ss ks) ms ss ks
  unfold EdProj.ops EdCurve.ops
  rw [e1, e2, e3, e4, e5]
  simp only [hmul (wide_lt _), EdCurve.nonce, EdCurve.challenge, EdCurve.scalarOf]

end Coords

theorem coords [Rel F] {C : EdCurve edW.Point} (hb : C.base = edBase) (hc : C.compress = edCompress)
    (hd : C.decompress = edDecompress) : Coords C (Rep : Ext F → _) := by
  constructor
  · rw [hb]
    exact edBase_order
  · rw [hb]
    exact rep_base
  · exact fun h => h.neg
  · exact fun h h' => h.eq_iff h'
  · exact fun h => h.isId_iff
  · exact fun h => h.isSmallOrder
  · rw [hc]
    exact fun h => h.compress
  · rw [hd]
    exact decompress_rep
  · rw [hb]
    exact fun h => mulBase_spec h
  · rw [hb]
    exact fun ha hb hA => doubleBase_spec ha hb hA
  · exact fun h => ⟨straus_spec h, pippenger_spec h⟩

theorem ops_eq (F : Type) [Add F] [Sub F] [Neg F] [Mul F] [Zero F] [One F] [FE F] [Rel F] (sha : List UInt8 → Bytes 64)
    (zs : List (List UInt8) → List (Bytes 64) → List (Bytes 32) → ℕ → ℕ) (hz : ∀ ms ss ks i, zs ms ss ks i < 2 ^ 128) :
    EdProj.ops F sha zs = (ed25519 sha).ops zs := by
  have hs : (ed25519 sha).sha512 = sha := by rw [ed25519]
  have h := (coords (F := F) (C := ed25519 sha) (by rw [ed25519]) (by rw [ed25519]) (by rw [ed25519])).ops zs
    fun ms ss ks i => (hz ms ss ks i).trans (by norm_num)
  rwa [hs] at h

end EdProj

end Verif
