import Verif.Props.Primitives
import Verif.Props.Bls
import Verif.Props.Nizk
import Verif.Props.EdForge

/-!
# C115, the sponge: what two messages with the same SHAKE256 digest exhibit

The digest that is signed with a decomposition proof is the first 32 bytes of SHAKE256 (decomp.rs:85-94). Two different messages with the
same digest exhibit a collision of the permutation on the digest or on the capacity, or a call whose value has capacity zero.
-/

namespace Verif

/-- The padded last block: the message suffix, `0x1F`, zeros and `0x80`; `0x9F` if only one byte is left. FIPS 202, section B.2. -/
def Spec.shakePad (l : List UInt8) : List UInt8 :=
  if l.length = 135 then l ++ [0x9F] else l ++ [0x1F] ++ List.replicate (134 - l.length) 0 ++ [0x80]

/-- The blocks of a message. -/
def Spec.shakeBlocks (l : List UInt8) : List (List UInt8) :=
  if l.length < 136 then [Spec.shakePad l] else l.take 136 :: Spec.shakeBlocks (l.drop 136)
termination_by l.length
decreasing_by rw [List.length_drop]; omega

/-- The argument of the permutation: the state with the block added to its first 17 words. -/
def Spec.spongeIn (a : List UInt64) (b : List UInt8) : List UInt64 := List.zipWith (· ^^^ ·) a (Keccak.words b ++ List.replicate 8 0)

/-- The arguments with which the permutation is called, from the state `a`. -/
def Spec.spongeCalls : List UInt64 → List (List UInt8) → List (List UInt64)
  | _, [] => []
  | a, b :: bs => Spec.spongeIn a b :: Spec.spongeCalls (Keccak.f (Spec.spongeIn a b)) bs

/-- The arguments with which the permutation is called for a message. -/
def Spec.shakeTrace (msg : List UInt8) : List (List UInt64) := Spec.spongeCalls (List.replicate 25 0) (Spec.shakeBlocks msg)

theorem Keccak.words_inj {l l' : List UInt8} (h8 : 8 ∣ l.length) (hl : l.length = l'.length) (h : words l = words l') : l = l' := by
  obtain ⟨k, hk⟩ := h8
  have hk' : l.length / 8 = k := by omega
  refine chunks_inj 8 (by decide) k l l' (by omega) (by omega) fun i hi => ?_
  unfold words at h
  rw [← hl, hk', List.map_inj_left] at h
  have hv := congrArg UInt64.toNat (h i (List.mem_range.2 hi))
  have hlen : ∀ x : List UInt8, x.length = l.length → ((x.drop (8 * i)).take 8).length = 8 := by
    intro x hx
    simp only [List.length_take, List.length_drop]
    omega
  have hlt : ∀ x : List UInt8, x.length = l.length → Codec.leVal ((x.drop (8 * i)).take 8) < 2 ^ 64 := by
    intro x hx
    have := Codec.leVal_lt ((x.drop (8 * i)).take 8)
    rw [hlen x hx] at this
    exact this
  rw [UInt64.toNat_ofNat_of_lt' (hlt l rfl), UInt64.toNat_ofNat_of_lt' (hlt l' hl.symm)] at hv
  exact leVal_inj (by rw [hlen l rfl, hlen l' hl.symm]) hv

theorem Keccak.words_length {b : List UInt8} (hb : b.length = 136) : (words b).length = 17 := by
  rw [words, List.length_map, List.length_range, hb]

theorem Keccak.f_length {a : List UInt64} (_ : a.length = 25) : (f a).length = 25 := by
  have key : ∀ (cs : List UInt64) (a : List UInt64), a.length = 25 → (cs.foldl round a).length = 25 := by
    intro cs
    induction cs with
    | nil => exact fun a h => h
    | cons c cs ih =>
      refine fun a _ => ih _ ?_
      rw [round, List.length_set, chi, List.length_map, List.length_range]
  exact key _ _ ‹_›

attribute [local irreducible] Keccak.f

theorem spongeIn_length {a : List UInt64} {b : List UInt8} (ha : a.length = 25) (hb : b.length = 136) : (Spec.spongeIn a b).length = 25 := by
  rw [Spec.spongeIn, List.length_zipWith, List.length_append, Keccak.words_length hb, List.length_replicate, ha]
  rfl

theorem zipWith_zero : ∀ (l : List UInt64) (n : ℕ), l.length = n → List.zipWith (· ^^^ ·) l (List.replicate n 0) = l
  | [], _, _ => rfl
  | x :: l, n + 1, h => by
    rw [List.replicate_succ, List.zipWith_cons_cons, zipWith_zero l n (by simpa using h), UInt64.xor_zero]
  | _ :: _, 0, h => by cases h

theorem zipWith_xor_inj : ∀ (a w w' : List UInt64), a.length = w.length → a.length = w'.length →
    List.zipWith (· ^^^ ·) a w = List.zipWith (· ^^^ ·) a w' → w = w'
  | [], [], [], _, _, _ => rfl
  | x :: a, y :: w, z :: w', h, h', e => by
    rw [List.zipWith_cons_cons, List.zipWith_cons_cons, List.cons.injEq] at e
    rw [(UInt64.xor_right_inj _).1 e.1, zipWith_xor_inj a w w' (by simpa using h) (by simpa using h') e.2]
  | [], _ :: _, _, h, _, _ => by cases h
  | [], [], _ :: _, _, h, _ => by cases h
  | _ :: _, [], _, h, _, _ => by cases h
  | _ :: _, _ :: _, [], _, h, _ => by cases h

/-- The block does not reach the capacity. -/
theorem spongeIn_drop {a : List UInt64} {b : List UInt8} (ha : a.length = 25) (hb : b.length = 136) :
    (Spec.spongeIn a b).drop 17 = a.drop 17 := by
  rw [Spec.spongeIn, List.drop_zipWith, List.drop_append_of_le_length (by rw [Keccak.words_length hb]),
    List.drop_of_length_le (l := Keccak.words b) (by rw [Keccak.words_length hb]), List.nil_append]
  exact zipWith_zero _ _ (by rw [List.length_drop, ha])

theorem spongeIn_inj {a : List UInt64} {b b' : List UInt8} (ha : a.length = 25) (hb : b.length = 136) (hb' : b'.length = 136)
    (h : Spec.spongeIn a b = Spec.spongeIn a b') : b = b' := by
  have hw := Keccak.words_length hb
  have hw' := Keccak.words_length hb'
  have := zipWith_xor_inj a _ _ (by rw [List.length_append, hw, List.length_replicate, ha])
    (by rw [List.length_append, hw', List.length_replicate, ha]) h
  exact Keccak.words_inj (by rw [hb]; decide) (by rw [hb, hb']) (List.append_inj this (by rw [hw, hw'])).1

/-- The state after some blocks. -/
def Spec.spongeRun (a : List UInt64) (bs : List (List UInt8)) : List UInt64 := bs.foldl (fun a b => Keccak.f (Spec.spongeIn a b)) a

theorem spongeRun_length : ∀ (bs : List (List UInt8)) (a : List UInt64), a.length = 25 → (∀ b ∈ bs, b.length = 136) →
    (Spec.spongeRun a bs).length = 25
  | [], _, ha, _ => ha
  | b :: bs, _, ha, h => spongeRun_length bs _ (Keccak.f_length (spongeIn_length ha (h b List.mem_cons_self)))
      fun x hx => h x (List.mem_cons_of_mem _ hx)

theorem spongeCalls_snoc : ∀ (bs : List (List UInt8)) (a : List UInt64) (b : List UInt8),
    Spec.spongeCalls a (bs ++ [b]) = Spec.spongeCalls a bs ++ [Spec.spongeIn (Spec.spongeRun a bs) b]
  | [], _, _ => rfl
  | c :: bs, a, b => by
    rw [List.cons_append, Spec.spongeCalls, spongeCalls_snoc bs, Spec.spongeCalls, List.cons_append]
    rfl

theorem spongeRun_snoc (bs : List (List UInt8)) (a : List UInt64) (b : List UInt8) :
    Spec.spongeRun a (bs ++ [b]) = Keccak.f (Spec.spongeIn (Spec.spongeRun a bs) b) := by
  simp only [Spec.spongeRun, List.foldl_append, List.foldl_cons, List.foldl_nil]

/-- A collision inside: two different arguments with values that agree in the capacity, or a value with capacity zero. -/
def Spec.Inner (xs ys : List (List UInt64)) : Prop :=
  (∃ x ∈ xs, ∃ y ∈ ys, x ≠ y ∧ (Keccak.f x).drop 17 = (Keccak.f y).drop 17) ∨
  ∃ x ∈ xs ++ ys, (Keccak.f x).drop 17 = List.replicate 8 0

theorem Spec.Inner.mono {xs ys xs' ys' : List (List UInt64)} (h : Spec.Inner xs ys) (hx : xs ⊆ xs') (hy : ys ⊆ ys') :
    Spec.Inner xs' ys' := by
  rcases h with ⟨x, h1, y, h2, h⟩ | ⟨x, h1, h⟩
  · exact Or.inl ⟨x, hx h1, y, hy h2, h⟩
  · refine Or.inr ⟨x, ?_, h⟩
    rcases List.mem_append.1 h1 with h1 | h1
    · exact List.mem_append_left _ (hx h1)
    · exact List.mem_append_right _ (hy h1)

/-- If the arguments of the last calls agree then all blocks agree, or there is a collision inside. -/
theorem sponge_inner (bs : List (List UInt8)) : ∀ (bs' : List (List UInt8)) (b b' : List UInt8),
    (∀ x ∈ bs ++ [b], x.length = 136) → (∀ x ∈ bs' ++ [b'], x.length = 136) →
    Spec.spongeIn (Spec.spongeRun (List.replicate 25 0) bs) b = Spec.spongeIn (Spec.spongeRun (List.replicate 25 0) bs') b' →
    bs ++ [b] = bs' ++ [b'] ∨ Spec.Inner (Spec.spongeCalls (List.replicate 25 0) bs) (Spec.spongeCalls (List.replicate 25 0) bs') := by
  induction bs using List.reverseRecOn with
  | nil =>
    intro bs' b b' hb hb' h
    have hbl := hb b (by simp)
    have hbl' := hb' b' (by simp)
    rcases List.eq_nil_or_concat' bs' with rfl | ⟨cs, c, rfl⟩
    · left
      rw [spongeIn_inj (by rfl) hbl hbl' h]
    · right
      have hlen : (Spec.spongeRun (List.replicate 25 0) (cs ++ [c])).length = 25 :=
        spongeRun_length _ _ (by rfl) fun x hx => hb' x (List.mem_append_left _ hx)
      have hd := congrArg (List.drop 17) h
      rw [spongeIn_drop (by rfl) hbl, spongeIn_drop hlen hbl', spongeRun_snoc] at hd
      refine Or.inr ⟨_, List.mem_append_right _ ?_, hd.symm⟩
      rw [spongeCalls_snoc]
      simp
  | append_singleton ds d ih =>
    intro bs' b b' hb hb' h
    have hbl := hb b (by simp)
    have hbl' := hb' b' (by simp)
    have hlen : (Spec.spongeRun (List.replicate 25 0) (ds ++ [d])).length = 25 :=
      spongeRun_length _ _ (by rfl) fun x hx => hb x (List.mem_append_left _ hx)
    rcases List.eq_nil_or_concat' bs' with rfl | ⟨cs, c, rfl⟩
    · right
      have hd := congrArg (List.drop 17) h
      rw [spongeIn_drop hlen hbl, spongeIn_drop (by rfl) hbl', spongeRun_snoc] at hd
      refine Or.inr ⟨_, List.mem_append_left _ ?_, hd⟩
      rw [spongeCalls_snoc]
      simp
    · have hlen' : (Spec.spongeRun (List.replicate 25 0) (cs ++ [c])).length = 25 :=
        spongeRun_length _ _ (by rfl) fun x hx => hb' x (List.mem_append_left _ hx)
      have hd := congrArg (List.drop 17) h
      rw [spongeIn_drop hlen hbl, spongeIn_drop hlen' hbl', spongeRun_snoc, spongeRun_snoc] at hd
      by_cases he : Spec.spongeIn (Spec.spongeRun (List.replicate 25 0) ds) d = Spec.spongeIn (Spec.spongeRun (List.replicate 25 0) cs) c
      · rcases ih cs d c (fun x hx => hb x (List.mem_append_left _ hx)) (fun x hx => hb' x (List.mem_append_left _ hx)) he with e | e
        · left
          rw [← e] at h hlen' ⊢
          rw [spongeIn_inj hlen hbl hbl' h]
        · right
          refine e.mono ?_ ?_ <;> rw [spongeCalls_snoc] <;> exact List.subset_append_left _ _
      · right
        refine Or.inl ⟨_, ?_, _, ?_, he, hd⟩ <;> rw [spongeCalls_snoc] <;> simp

/-! ### padding -/

theorem shakePad_length {l : List UInt8} (h : l.length < 136) : (Spec.shakePad l).length = 136 := by
  unfold Spec.shakePad
  split <;> simp <;> omega

theorem shakePad_inj {l l' : List UInt8} (h : l.length < 136) (h' : l'.length < 136) (e : Spec.shakePad l = Spec.shakePad l') : l = l' := by
  wlog hle : l.length ≤ l'.length
  · exact (this h' h e.symm (by omega)).symm
  rcases hle.eq_or_lt with hl | hl
  · unfold Spec.shakePad at e
    rw [← hl] at e
    split at e
    · exact (List.append_inj e hl).1
    · rw [List.append_assoc, List.append_assoc, List.append_assoc, List.append_assoc] at e
      exact (List.append_inj e hl).1
  · exfalso
    have hne : l.length ≠ 135 := by omega
    unfold Spec.shakePad at e
    rw [if_neg hne] at e
    split at e
    · have := congrArg List.getLast? e
      rw [List.getLast?_concat, List.getLast?_concat] at this
      revert this
      decide
    · have := congrArg (fun x => x[l'.length]?) e
      simp only [List.append_assoc] at this
      rw [List.getElem?_append_right (by omega), List.getElem?_append_right (l₁ := l') le_rfl,
        List.getElem?_append_right (by simp; omega), List.getElem?_append_left (by simp; omega)] at this
      rw [List.getElem?_replicate_of_lt (by simp; omega)] at this
      simp at this

theorem shakeBlocks_short {l : List UInt8} (h : l.length < 136) : Spec.shakeBlocks l = [Spec.shakePad l] := by
  rw [Spec.shakeBlocks, if_pos h]

theorem shakeBlocks_long {l : List UInt8} (h : ¬ l.length < 136) : Spec.shakeBlocks l = l.take 136 :: Spec.shakeBlocks (l.drop 136) := by
  rw [Spec.shakeBlocks, if_neg h]

theorem shakeBlocks_ne (l : List UInt8) : Spec.shakeBlocks l ≠ [] := by
  rw [Spec.shakeBlocks]
  split <;> simp

theorem shakeBlocks_length : ∀ (n : ℕ) (l : List UInt8), l.length ≤ n → ∀ b ∈ Spec.shakeBlocks l, b.length = 136 := by
  intro n
  induction n with
  | zero =>
    intro l hl b hb
    rw [shakeBlocks_short (by omega), List.mem_singleton] at hb
    rw [hb, shakePad_length (by omega)]
  | succ n ih =>
    intro l hl b hb
    by_cases h : l.length < 136
    · rw [shakeBlocks_short h, List.mem_singleton] at hb
      rw [hb, shakePad_length h]
    · rw [shakeBlocks_long h] at hb
      rcases List.mem_cons.1 hb with rfl | hb
      · rw [List.length_take]; omega
      · exact ih _ (by rw [List.length_drop]; omega) b hb

theorem shakeBlocks_inj : ∀ (n : ℕ) (l l' : List UInt8), l.length ≤ n → Spec.shakeBlocks l = Spec.shakeBlocks l' → l = l' := by
  intro n
  induction n with
  | zero =>
    intro l l' hl e
    have h : l.length < 136 := by omega
    by_cases h' : l'.length < 136
    · rw [shakeBlocks_short h, shakeBlocks_short h', List.singleton_inj] at e
      exact shakePad_inj h h' e
    · rw [shakeBlocks_short h, shakeBlocks_long h', List.cons.injEq] at e
      exact absurd e.2.symm (shakeBlocks_ne _)
  | succ n ih =>
    intro l l' hl e
    by_cases h : l.length < 136
    · by_cases h' : l'.length < 136
      · rw [shakeBlocks_short h, shakeBlocks_short h', List.singleton_inj] at e
        exact shakePad_inj h h' e
      · rw [shakeBlocks_short h, shakeBlocks_long h', List.cons.injEq] at e
        exact absurd e.2.symm (shakeBlocks_ne _)
    · by_cases h' : l'.length < 136
      · rw [shakeBlocks_long h, shakeBlocks_short h', List.cons.injEq] at e
        exact absurd e.2 (shakeBlocks_ne _)
      · rw [shakeBlocks_long h, shakeBlocks_long h', List.cons.injEq] at e
        rw [← List.take_append_drop 136 l, ← List.take_append_drop 136 l', e.1, ih _ _ (by rw [List.length_drop]; omega) e.2]

/-- The function of the model absorbs these blocks. -/
theorem absorb_eq : ∀ (fuel : ℕ) (a : List UInt64) (l : List UInt8), l.length < fuel →
    Keccak.absorb fuel a l = Spec.spongeRun a (Spec.shakeBlocks l)
  | 0, _, _, h => by omega
  | fuel + 1, a, l, h => by
    rw [Keccak.absorb]
    by_cases hl : l.length < 136
    · rw [if_pos hl, shakeBlocks_short hl, Keccak.absorbBlock, Spec.spongeRun, List.foldl_cons, List.foldl_nil, Spec.spongeIn,
        Spec.shakePad]
    · rw [if_neg hl, shakeBlocks_long hl, absorb_eq fuel _ _ (by rw [List.length_drop]; omega), Keccak.absorbBlock, Spec.spongeRun,
        Spec.spongeRun, List.foldl_cons, Spec.spongeIn]

theorem digest_words {a a' : List UInt64}
    (h : Codec.leBytes 8 (a.getD 0 0).toNat ++ Codec.leBytes 8 (a.getD 1 0).toNat ++ Codec.leBytes 8 (a.getD 2 0).toNat ++
        Codec.leBytes 8 (a.getD 3 0).toNat =
      Codec.leBytes 8 (a'.getD 0 0).toNat ++ Codec.leBytes 8 (a'.getD 1 0).toNat ++ Codec.leBytes 8 (a'.getD 2 0).toNat ++
        Codec.leBytes 8 (a'.getD 3 0).toNat) (ha : a.length = 25) (ha' : a'.length = 25) : a.take 4 = a'.take 4 := by
  have inj : ∀ x y : UInt64, Codec.leBytes 8 x.toNat = Codec.leBytes 8 y.toNat → x = y := by
    intro x y e
    have hn := congrArg Codec.leVal e
    rw [Codec.leVal_leBytes _ _ (UInt64.toNat_lt _), Codec.leVal_leBytes _ _ (UInt64.toNat_lt _)] at hn
    exact UInt64.toNat_inj.1 hn
  obtain ⟨h, h3⟩ := List.append_inj' h (by simp [Codec.length_leBytes])
  obtain ⟨h, h2⟩ := List.append_inj' h (by simp [Codec.length_leBytes])
  obtain ⟨h0, h1⟩ := List.append_inj' h (by simp [Codec.length_leBytes])
  have h0 := inj _ _ h0
  have h1 := inj _ _ h1
  have h2 := inj _ _ h2
  have h3 := inj _ _ h3
  match a, a', ha, ha' with
  | x0 :: x1 :: x2 :: x3 :: xs, y0 :: y1 :: y2 :: y3 :: ys, _, _ =>
    simp only [List.getD_cons_zero, List.getD_cons_succ] at h0 h1 h2 h3
    simp [h0, h1, h2, h3]

/-- What a collision exhibits, in terms of the calls of the permutation. -/
def Spec.ShakeBreak (m m' : List UInt8) : Prop :=
  (∃ x ∈ (Spec.shakeTrace m).getLast?, ∃ y ∈ (Spec.shakeTrace m').getLast?, x ≠ y ∧ (Keccak.f x).take 4 = (Keccak.f y).take 4) ∨
  (∃ x ∈ Spec.shakeTrace m, ∃ y ∈ Spec.shakeTrace m', x ≠ y ∧ (Keccak.f x).drop 17 = (Keccak.f y).drop 17) ∨
  ∃ x ∈ Spec.shakeTrace m ++ Spec.shakeTrace m', (Keccak.f x).drop 17 = List.replicate 8 0

/-- **C115** (SHAKE256). Two different messages with the same 32-byte digest exhibit, among the calls of Keccak-f made for them, two
different last arguments whose values agree in the 256 bits of the digest, or two different arguments whose values agree in the 512 bits of
the capacity, or a value whose capacity is zero. The messages may have any lengths. -/
theorem C115_shake (m m' : List UInt8) (hne : m ≠ m') (h : Keccak.shake256 m = Keccak.shake256 m') :
    Spec.ShakeBreak m m' := by
  have hv := congrArg Subtype.val h
  simp only [Keccak.shake256] at hv
  rw [absorb_eq _ _ _ (Nat.lt_succ_self _), absorb_eq _ _ _ (Nat.lt_succ_self _)] at hv
  have hlen := shakeBlocks_length _ m le_rfl
  have hlen' := shakeBlocks_length _ m' le_rfl
  have hd := digest_words hv (spongeRun_length _ _ (by rfl) hlen) (spongeRun_length _ _ (by rfl) hlen')
  have hb : Spec.shakeBlocks m ≠ Spec.shakeBlocks m' := fun e => hne (shakeBlocks_inj _ _ _ le_rfl e)
  unfold Spec.ShakeBreak Spec.shakeTrace
  rcases List.eq_nil_or_concat' (Spec.shakeBlocks m) with e | ⟨bs, b, e⟩
  · exact absurd e (shakeBlocks_ne _)
  rcases List.eq_nil_or_concat' (Spec.shakeBlocks m') with e' | ⟨bs', b', e'⟩
  · exact absurd e' (shakeBlocks_ne _)
  rw [e, e'] at hb hd
  rw [e] at hlen
  rw [e'] at hlen'
  rw [e, e']
  rw [spongeRun_snoc, spongeRun_snoc] at hd
  rw [spongeCalls_snoc, spongeCalls_snoc]
  by_cases he : Spec.spongeIn (Spec.spongeRun (List.replicate 25 0) bs) b = Spec.spongeIn (Spec.spongeRun (List.replicate 25 0) bs') b'
  · right
    rcases sponge_inner bs bs' b b' hlen hlen' he with e | e
    · exact absurd e hb
    · exact e.mono (List.subset_append_left _ _) (List.subset_append_left _ _)
  · left
    refine ⟨_, ?_, _, ?_, he, hd⟩ <;> simp

/-- **C115** (what is signed). At BLS12-381, whoever finds two decomposition proofs with the same signed digest has broken SHAKE256 on two
messages of 256 bytes, by one of four calls of the permutation: a signature on one proof is a signature on no other otherwise. -/
theorem C115_signed {K : Type} [CommMonoid K] [DecidableEq K] (pair : BlsG1 → BlsG2 → K) (stream : List UInt8 → List UInt8 → ℕ → UInt8)
    (ed : EdOps) (d d' : DecompProof blsR BlsG2) (hne : d ≠ d')
    (h : d.digest (arkSuite pair stream Keccak.shake256 ed) = d'.digest (arkSuite pair stream Keccak.shake256 ed)) :
    ∃ m m' : List UInt8, m = messageFromPi (arkSuite pair stream Keccak.shake256 ed) d ∧
      m' = messageFromPi (arkSuite pair stream Keccak.shake256 ed) d' ∧ m.length = 256 ∧ m'.length = 256 ∧
      (Spec.shakeTrace m).length = 2 ∧ (Spec.shakeTrace m').length = 2 ∧ Spec.ShakeBreak m m' := by
  have hC : CodecLaws (arkSuite pair stream Keccak.shake256 ed) 48 96 32 := C96_codec _ _ _ pair
  have hlen : ∀ e : DecompProof blsR BlsG2, (messageFromPi (arkSuite pair stream Keccak.shake256 ed) e).length = 256 := by
    intro e
    change ((arkSuite pair stream Keccak.shake256 ed).c2.codec.enc e.proof.1 ++ ((arkSuite pair stream Keccak.shake256 ed).frC.enc e.proof.2.1 ++
      (arkSuite pair stream Keccak.shake256 ed).frC.enc e.proof.2.2) ++ (arkSuite pair stream Keccak.shake256 ed).c2.codec.enc e.gs).length = 256
    rw [List.length_append, List.length_append, List.length_append, hC.c2size, hC.c2size, hC.frsize, hC.frsize]
  have htr : ∀ m : List UInt8, m.length = 256 → (Spec.shakeTrace m).length = 2 := by
    intro m hm
    rw [Spec.shakeTrace, shakeBlocks_long (by omega), shakeBlocks_short (by rw [List.length_drop]; omega)]
    rfl
  rcases (C43_digest _ hC d d').2 h with e | ⟨e, e'⟩
  · exact absurd e hne
  · exact ⟨_, _, rfl, rfl, hlen d, hlen d', htr _ (hlen d), htr _ (hlen d'), C115_shake _ _ e e'⟩

/-- The calls made for a message of 136 bytes: two, the second for a block of padding only. -/
example : (Spec.shakeBlocks (List.replicate 136 7)).length = 2 := by decide +kernel

/-- **C115** (known answers, several blocks). 200 bytes `0xA3`: SHAKE256 (the example of NIST), SHA-512 and BLAKE2s with the personalisation of
a test (poly.rs:535); and SHAKE256 of 135 such bytes, where the padding is one byte. -/
theorem C115_blocks :
    (Keccak.shake256 (List.replicate 200 0xA3)).1 = ([205, 138, 146, 14, 209, 65, 170, 4, 7, 162, 45, 89, 40, 134, 82, 233, 217, 241,
      167, 238, 12, 30, 124, 28, 166, 153, 66, 77, 168, 74, 144, 77] : List UInt8) ∧
    (Keccak.shake256 (List.replicate 135 0xA3)).1 = ([54, 172, 220, 142, 192, 157, 173, 20, 82, 49, 34, 23, 66, 69, 251, 16, 242, 151,
      153, 142, 192, 141, 82, 77, 101, 201, 15, 229, 122, 192, 208, 6] : List UInt8) ∧
    (Sha512.hash (List.replicate 200 0xA3)).1 = ([82, 11, 89, 114, 46, 140, 105, 5, 153, 66, 208, 117, 246, 63, 11, 244, 60, 212, 112,
      152, 74, 55, 101, 172, 218, 68, 175, 204, 244, 144, 186, 107, 114, 132, 151, 229, 3, 27, 38, 205, 30, 74, 211, 149, 175, 239, 209, 77, 46, 132, 124, 249, 231, 113, 42, 176, 178, 225, 155, 45, 159, 4, 39, 225] : List UInt8) ∧
    Blake2s.hash (ascii "OnePiece") (List.replicate 200 0xA3) = [744688137, 2462765863, 4290997275, 900004894, 3854378704, 3282487567,
      2554484765, 2559455813] := by
  refine ⟨?_, ?_, ?_, ?_⟩ <;> decide +kernel

/-- The hypotheses of `C115_shake` and `C115_sha` can be met: digests are shorter than messages. -/
theorem hash_collides {n m : ℕ} (h : m < n) (H : List UInt8 → Bytes m) :
    ∃ a b : List UInt8, a.length = n ∧ b.length = n ∧ a ≠ b ∧ H a = H b := by
  obtain ⟨a, b, hne, e⟩ := Fintype.exists_ne_map_eq_of_card_lt (fun x : Bytes n => H x.1)
    (by rw [card_bytes_type, card_bytes_type]; exact Nat.pow_lt_pow_right (by decide) h)
  exact ⟨a.1, b.1, a.2, b.2, fun he => hne (Subtype.ext he), e⟩

example : ∃ m m' : List UInt8, m ≠ m' ∧ Keccak.shake256 m = Keccak.shake256 m' ∧ Spec.ShakeBreak m m' := by
  obtain ⟨a, b, -, -, hne, e⟩ := hash_collides (show 32 < 33 by decide) Keccak.shake256
  exact ⟨a, b, hne, e, C115_shake a b hne e⟩

example : ∃ m m' : List UInt8, m ≠ m' ∧ Sha512.hash m = Sha512.hash m' ∧ ∃ x ∈ Spec.shaTrace m, ∃ y ∈ Spec.shaTrace m', x ≠ y ∧ x.out = y.out := by
  obtain ⟨a, b, ha, hb, hne, e⟩ := hash_collides (show 64 < 65 by decide) Sha512.hash
  exact ⟨a, b, hne, e, C115_sha a b (by rw [ha]; norm_num) (by rw [hb]; norm_num) hne e⟩

/-- The hypotheses of `C115_signed` can be met: there are more pairs of scalars than digests. -/
example {K : Type} [CommMonoid K] [DecidableEq K] (pair : BlsG1 → BlsG2 → K) (stream : List UInt8 → List UInt8 → ℕ → UInt8) (ed : EdOps) :
    ∃ d d' : DecompProof blsR BlsG2, d ≠ d' ∧
      d.digest (arkSuite pair stream Keccak.shake256 ed) = d'.digest (arkSuite pair stream Keccak.shake256 ed) := by
  obtain ⟨a, b, hne, e⟩ := Fintype.exists_ne_map_eq_of_card_lt
    (fun x : ZMod blsR × ZMod blsR => ((⟨(0, x), 0⟩ : DecompProof blsR BlsG2).digest (arkSuite pair stream Keccak.shake256 ed)).bytes)
    (by rw [card_bytes_type, Fintype.card_prod, ZMod.card]; unfold blsR; norm_num)
  refine ⟨_, _, fun he => hne ?_, congrArg Digest.mk e⟩
  simpa using he

end Verif
