import Verif.Model.Primitives
import Verif.Model.ArkHash
import Verif.Props.Hash

/-!
# The hash functions written out: C115
-/

namespace Verif

/-! ### words and bytes -/

theorem leVal_inj {l l' : List UInt8} (hl : l.length = l'.length) (h : Codec.leVal l = Codec.leVal l') : l = l' := by
  rw [← Codec.leBytes_leVal l, ← Codec.leBytes_leVal l', hl, h]

/-- Byte strings of whole words are determined by the values of their words. -/
theorem chunks_inj (w : ℕ) (hw : 0 < w) : ∀ (k : ℕ) (l l' : List UInt8), l.length = k * w → l'.length = k * w →
    (∀ i < k, (l.drop (w * i)).take w = (l'.drop (w * i)).take w) → l = l'
  | 0, l, l', h, h', _ => by
    rw [zero_mul, List.length_eq_zero_iff] at h h'
    rw [h, h']
  | k + 1, l, l', h, h', hi => by
    rw [add_mul, one_mul] at h h'
    have h0 := hi 0 (by omega)
    simp only [mul_zero, List.drop_zero] at h0
    rw [← List.take_append_drop w l, ← List.take_append_drop w l', h0]
    congr 1
    refine chunks_inj w hw k _ _ (by simp [h]) (by simp [h']) fun i hik => ?_
    have := hi (i + 1) (by omega)
    rwa [List.drop_drop, List.drop_drop, show w + w * i = w * (i + 1) by ring]

theorem Blake2s.words_inj {l l' : List UInt8} (h4 : 4 ∣ l.length) (hl : l.length = l'.length) (h : words l = words l') : l = l' := by
  obtain ⟨k, hk⟩ := h4
  have hk' : l.length / 4 = k := by omega
  refine chunks_inj 4 (by decide) k l l' (by omega) (by omega) fun i hi => ?_
  unfold words at h
  rw [← hl, hk', List.map_inj_left] at h
  have hv := congrArg UInt32.toNat (h i (List.mem_range.2 hi))
  have hlen : ∀ x : List UInt8, x.length = l.length → ((x.drop (4 * i)).take 4).length = 4 := by
    intro x hx
    simp only [List.length_take, List.length_drop]
    omega
  have hlt : ∀ x : List UInt8, x.length = l.length → Codec.leVal ((x.drop (4 * i)).take 4) < 2 ^ 32 := by
    intro x hx
    have := Codec.leVal_lt ((x.drop (4 * i)).take 4)
    rw [hlen x hx] at this
    exact this
  rw [UInt32.toNat_ofNat_of_lt' (hlt l rfl), UInt32.toNat_ofNat_of_lt' (hlt l' hl.symm)] at hv
  exact leVal_inj (by rw [hlen l rfl, hlen l' hl.symm]) hv

/-! ### BLAKE2s -/

/-- A call of the compression function. -/
structure Spec.BlakeCall where
  h : List UInt32
  m : List UInt32
  t : UInt64
  last : Bool
deriving DecidableEq

/-- Its value. -/
def Spec.BlakeCall.out (c : Spec.BlakeCall) : List UInt32 := Blake2s.compress c.h c.m c.t c.last

/-- The message in blocks of 64 bytes; the last one, filled with zeros, may be short and is empty for the empty message only. -/
def Spec.blakeBlocks (l : List UInt8) : List (List UInt8) :=
  if h : l.length ≤ 64 then [l ++ List.replicate (64 - l.length) 0] else l.take 64 :: Spec.blakeBlocks (l.drop 64)
termination_by l.length
decreasing_by simp; omega

/-- The calls made for the blocks `bs` of a message of `total` bytes, `n` of which have been processed. -/
def Spec.blakeCalls (total : ℕ) : ℕ → List UInt32 → List (List UInt8) → List Spec.BlakeCall
  | _, _, [] => []
  | n, h, b :: bs =>
    let c : Spec.BlakeCall := ⟨h, Blake2s.words b, UInt64.ofNat (min (n + 64) total), bs.isEmpty⟩
    c :: Spec.blakeCalls total (n + 64) c.out bs

/-- The calls made for hashing `msg`. -/
def Spec.blakeTrace (persona msg : List UInt8) : List Spec.BlakeCall :=
  Spec.blakeCalls msg.length 0 (Blake2s.init persona) (Spec.blakeBlocks msg)

theorem blakeBlocks_short {l : List UInt8} (h : l.length ≤ 64) : Spec.blakeBlocks l = [l ++ List.replicate (64 - l.length) 0] := by
  rw [Spec.blakeBlocks, dif_pos h]

theorem blakeBlocks_long {l : List UInt8} (h : ¬ l.length ≤ 64) : Spec.blakeBlocks l = l.take 64 :: Spec.blakeBlocks (l.drop 64) := by
  rw [Spec.blakeBlocks, dif_neg h]

theorem blakeBlocks_ne (l : List UInt8) : Spec.blakeBlocks l ≠ [] := by
  by_cases h : l.length ≤ 64
  · rw [blakeBlocks_short h]; simp
  · rw [blakeBlocks_long h]; simp

theorem blakeCalls_short {l : List UInt8} (h : l.length ≤ 64) (total n : ℕ) (ht : total = n + l.length) (st : List UInt32) :
    Spec.blakeCalls total n st (Spec.blakeBlocks l) =
      [⟨st, Blake2s.words (l ++ List.replicate (64 - l.length) 0), UInt64.ofNat (n + l.length), true⟩] := by
  rw [blakeBlocks_short h, Spec.blakeCalls, Spec.blakeCalls, show min (n + 64) total = n + l.length by omega]
  rfl

theorem blakeCalls_long {l : List UInt8} (h : ¬ l.length ≤ 64) (total n : ℕ) (ht : total = n + l.length) (st : List UInt32) :
    Spec.blakeCalls total n st (Spec.blakeBlocks l) =
      ⟨st, Blake2s.words (l.take 64), UInt64.ofNat (n + 64), false⟩ ::
        Spec.blakeCalls total (n + 64) (Blake2s.compress st (Blake2s.words (l.take 64)) (UInt64.ofNat (n + 64)) false)
          (Spec.blakeBlocks (l.drop 64)) := by
  have he : (Spec.blakeBlocks (l.drop 64)).isEmpty = false := by
    rw [Bool.eq_false_iff]
    intro h'
    exact blakeBlocks_ne _ (List.isEmpty_iff.1 h')
  rw [blakeBlocks_long h, Spec.blakeCalls, show min (n + 64) total = n + 64 by omega, he]
  rfl

/-- What is absorbed is the value of the last call. -/
theorem absorb_last : ∀ (fuel : ℕ) (h : List UInt32) (n : ℕ) (l : List UInt8), l.length ≤ fuel →
    ∃ c ∈ Spec.blakeCalls (n + l.length) n h (Spec.blakeBlocks l),
      c.out = Blake2s.absorb fuel h n l ∧ c.t = UInt64.ofNat (n + l.length) ∧ c.last = true
  | 0, h, n, l, hl => by
    have h64 : l.length ≤ 64 := by omega
    rw [blakeCalls_short h64 _ _ rfl]
    exact ⟨_, List.mem_singleton_self _, rfl, rfl, rfl⟩
  | fuel + 1, h, n, l, hl => by
    by_cases h64 : l.length ≤ 64
    · rw [blakeCalls_short h64 _ _ rfl, Blake2s.absorb, if_pos h64]
      exact ⟨_, List.mem_singleton_self _, rfl, rfl, rfl⟩
    · rw [blakeCalls_long h64 _ _ rfl, Blake2s.absorb, if_neg h64]
      have hd : n + 64 + (l.drop 64).length = n + l.length := by rw [List.length_drop]; omega
      obtain ⟨c, hc, h1, h2, h3⟩ := absorb_last fuel
        (Blake2s.compress h (Blake2s.words (l.take 64)) (UInt64.ofNat (n + 64)) false) (n + 64) (l.drop 64)
        (by rw [List.length_drop]; omega)
      rw [hd] at hc h2
      exact ⟨c, List.mem_cons_of_mem _ hc, h1, h2, h3⟩

/-- Equal values of messages of one length: the same input, or a collision on the way. -/
theorem absorb_collision : ∀ (fuel : ℕ) (h h' : List UInt32) (n : ℕ) (l l' : List UInt8), l.length ≤ fuel → l.length = l'.length →
    Blake2s.absorb fuel h n l = Blake2s.absorb fuel h' n l' →
    (h = h' ∧ l = l') ∨ ∃ x ∈ Spec.blakeCalls (n + l.length) n h (Spec.blakeBlocks l),
      ∃ y ∈ Spec.blakeCalls (n + l'.length) n h' (Spec.blakeBlocks l'), x ≠ y ∧ x.out = y.out
  | 0, h, h', n, l, l', hf, hl, he => by
    have h0 : l = [] := List.length_eq_zero_iff.1 (by omega)
    have h0' : l' = [] := List.length_eq_zero_iff.1 (by omega)
    subst h0 h0'
    rw [blakeCalls_short (by simp) _ _ rfl, blakeCalls_short (by simp) _ _ rfl]
    by_cases hh : h = h'
    · exact Or.inl ⟨hh, rfl⟩
    · refine Or.inr ⟨_, List.mem_singleton_self _, _, List.mem_singleton_self _, fun e => hh ?_, he⟩
      exact congrArg Spec.BlakeCall.h e
  | fuel + 1, h, h', n, l, l', hf, hl, he => by
    by_cases h64 : l.length ≤ 64
    · have h64' : l'.length ≤ 64 := hl ▸ h64
      rw [blakeCalls_short h64 _ _ rfl, blakeCalls_short h64' _ _ rfl]
      rw [Blake2s.absorb, Blake2s.absorb, if_pos h64, if_pos h64'] at he
      by_cases hh : h = h' ∧ l = l'
      · exact Or.inl hh
      · refine Or.inr ⟨_, List.mem_singleton_self _, _, List.mem_singleton_self _, fun e => hh ?_, he⟩
        refine ⟨congrArg Spec.BlakeCall.h e, ?_⟩
        have hw : Blake2s.words (l ++ List.replicate (64 - l.length) 0) = Blake2s.words (l' ++ List.replicate (64 - l'.length) 0) :=
          congrArg Spec.BlakeCall.m e
        have := Blake2s.words_inj (by simp; omega) (by simp; omega) hw
        exact (List.append_inj this hl).1
    · have h64' : ¬ l'.length ≤ 64 := hl ▸ h64
      rw [blakeCalls_long h64 _ _ rfl, blakeCalls_long h64' _ _ rfl]
      rw [Blake2s.absorb, Blake2s.absorb, if_neg h64, if_neg h64'] at he
      have hd : n + 64 + (l.drop 64).length = n + l.length := by rw [List.length_drop]; omega
      have hd' : n + 64 + (l'.drop 64).length = n + l'.length := by rw [List.length_drop]; omega
      have ih := absorb_collision fuel _ _ (n + 64) (l.drop 64) (l'.drop 64) (by rw [List.length_drop]; omega)
        (by rw [List.length_drop, List.length_drop, hl]) he
      rw [hd, hd'] at ih
      rcases ih with ⟨hc, hdr⟩ | ⟨x, hx, y, hy, hne, ho⟩
      · by_cases hh : h = h' ∧ l = l'
        · exact Or.inl hh
        · refine Or.inr ⟨_, List.mem_cons_self, _, List.mem_cons_self, fun e => hh ?_, hc⟩
          refine ⟨congrArg Spec.BlakeCall.h e, ?_⟩
          have hw : Blake2s.words (l.take 64) = Blake2s.words (l'.take 64) := congrArg Spec.BlakeCall.m e
          have ht := Blake2s.words_inj (by rw [List.length_take, min_eq_left (by omega)]; decide)
            (by rw [List.length_take, List.length_take, hl]) hw
          rw [← List.take_append_drop 64 l, ← List.take_append_drop 64 l', ht, hdr]
      · exact Or.inr ⟨x, List.mem_cons_of_mem _ hx, y, List.mem_cons_of_mem _ hy, hne, ho⟩

theorem init_inj {p p' : List UInt8} (hp : p.length = 8) (hp' : p'.length = 8) (h : Blake2s.init p = Blake2s.init p') : p = p' := by
  refine Blake2s.words_inj (by rw [hp]; decide) (by rw [hp, hp']) ?_
  have hw : ∀ q : List UInt8, q.length = 8 → ∃ a b, Blake2s.words q = [a, b] := by
    intro q hq
    exact ⟨_, _, by unfold Blake2s.words; rw [hq]; rfl⟩
  obtain ⟨a, b, e⟩ := hw p hp
  obtain ⟨a', b', e'⟩ := hw p' hp'
  unfold Blake2s.init at h
  rw [e, e'] at h ⊢
  simpa [Blake2s.iv, UInt32.xor_right_inj] using h

/-- **C115** (BLAKE2s). Two different inputs of the hash with the same digest contain a collision of the compression function: among the
calls made for the first and the second input there are two different ones with the same value. So challenges of different statements,
and of different proof systems, come from different digests unless such a collision has been found. -/
theorem C115_blake (p p' m m' : List UInt8) (hp : p.length = 8) (hp' : p'.length = 8) (hm : m.length < 2 ^ 64) (hm' : m'.length < 2 ^ 64)
    (hne : (p, m) ≠ (p', m')) (h : Blake2s.hash p m = Blake2s.hash p' m') :
    ∃ x ∈ Spec.blakeTrace p m, ∃ y ∈ Spec.blakeTrace p' m', x ≠ y ∧ x.out = y.out := by
  unfold Spec.blakeTrace
  unfold Blake2s.hash at h
  by_cases hl : m.length = m'.length
  · have := absorb_collision m.length (Blake2s.init p) (Blake2s.init p') 0 m m' le_rfl hl (by rw [h, hl])
    rw [zero_add, zero_add] at this
    rcases this with ⟨h1, h2⟩ | h
    · exact absurd (Prod.ext (init_inj hp hp' h1) h2) hne
    · exact h
  · obtain ⟨c, hc, h1, h2, -⟩ := absorb_last m.length (Blake2s.init p) 0 m le_rfl
    obtain ⟨c', hc', h1', h2', -⟩ := absorb_last m'.length (Blake2s.init p') 0 m' le_rfl
    rw [zero_add] at hc h2 hc' h2'
    refine ⟨c, hc, c', hc', fun e => hl ?_, by rw [h1, h1', h]⟩
    rw [e, h2'] at h2
    have := congrArg UInt64.toNat h2
    rw [UInt64.toNat_ofNat_of_lt' hm', UInt64.toNat_ofNat_of_lt' hm] at this
    exact this.symm

/-! ### the generator -/

/-- The block counter has 64 bits and a block has 16 words, each of which gives one byte. -/
theorem byte_period (key : List UInt32) (j : ℕ) : ChaCha.byte key (j + 2 ^ 68) = ChaCha.byte key j := by
  have h : UInt64.ofNat ((j + 2 ^ 68) / 16) = UInt64.ofNat (j / 16) := by
    apply UInt64.toNat_inj.1
    rw [UInt64.toNat_ofNat', UInt64.toNat_ofNat']
    omega
  rw [ChaCha.byte, ChaCha.byte, ChaCha.word, ChaCha.word, h, show (j + 2 ^ 68) % 16 = j % 16 by omega]

theorem byte_period_mul (key : List UInt32) (j q : ℕ) : ChaCha.byte key (j + q * 2 ^ 68) = ChaCha.byte key j := by
  induction q with
  | zero => simp
  | succ q ih => rw [show j + (q + 1) * 2 ^ 68 = j + q * 2 ^ 68 + 2 ^ 68 by ring, byte_period, ih]

theorem window_period (key : List UInt32) (size q N : ℕ) (h : size * N = q * 2 ^ 68) (k : ℕ) :
    Spec.window (ChaCha.byte key) size k = Spec.window (ChaCha.byte key) size (k % N) := by
  refine congrArg List.ofFn (funext fun j => ?_)
  have hk : size * k + j = size * (k % N) + j + (k / N * q) * 2 ^ 68 := by
    rw [mul_assoc, ← h]
    conv_lhs => rw [← Nat.mod_add_div k N]
    ring
  rw [hk, byte_period_mul]

theorem forall_window {P : List UInt8 → Prop} (key : List UInt32) (size q N : ℕ) (hN : 0 < N) (h : size * N = q * 2 ^ 68) :
    (∀ k, P (Spec.window (ChaCha.byte key) size k)) ↔ ∀ k < N, P (Spec.window (ChaCha.byte key) size k) :=
  ⟨fun ha k _ => ha k, fun ha k => by rw [window_period key size q N h]; exact ha _ (Nat.mod_lt k hN)⟩

/-- **C115** (loops). At BLS12-381 `hash_to_field` and `hash_to_group` run forever exactly if none of the first `2^63` (first group: `2^64`)
attempts is acceptable: then the block counter of the generator has come round. -/
theorem C115_loops {ε : Type} (p m : List UInt8) (hp : p.length ≤ 8) :
    let s := blakeChaCha (Spec.eightBytes p) m
    ((hashToField (arkHash blakeChaCha) p m : Res ε _) = .diverge ↔ ∀ k < 2 ^ 63, arkFromRandom (Spec.window s 32 k) = none) ∧
    ((hashToGroup (arkHash blakeChaCha) arkRaw1 p m : Res ε _) = .diverge ↔
      ∀ k < 2 ^ 64, ¬ Spec.Acceptable arkRaw1 (Spec.window s 48 k)) ∧
    ((hashToGroup (arkHash blakeChaCha) arkRaw2 p m : Res ε _) = .diverge ↔
      ∀ k < 2 ^ 63, ¬ Spec.Acceptable arkRaw2 (Spec.window s 96 k)) := by
  intro s
  have h0 := (C51_field (ε := ε) (arkHash blakeChaCha) p m).2.2.2 hp
  have h1 := (C51_group (ε := ε) (arkHash blakeChaCha) arkRaw1 p m).2.2.2 hp
  have h2 := (C51_group (ε := ε) (arkHash blakeChaCha) arkRaw2 p m).2.2.2 hp
  simp only [arkHash] at h0
  rw [show (arkHash blakeChaCha).stream = blakeChaCha from rfl, show arkRaw1.size = 48 from rfl] at h1
  rw [show (arkHash blakeChaCha).stream = blakeChaCha from rfl, show arkRaw2.size = 96 from rfl] at h2
  rw [h1, h2]
  refine ⟨h0.trans ?_, ?_, ?_⟩
  · exact forall_window (P := fun b => arkFromRandom b = none) (Blake2s.hash (Spec.eightBytes p) m) 32 1 (2 ^ 63) (by norm_num) (by norm_num)
  · exact forall_window (P := fun b => ¬ Spec.Acceptable arkRaw1 b) (Blake2s.hash (Spec.eightBytes p) m) 48 3 (2 ^ 64) (by norm_num)
      (by norm_num)
  · exact forall_window (P := fun b => ¬ Spec.Acceptable arkRaw2 b) (Blake2s.hash (Spec.eightBytes p) m) 96 3 (2 ^ 63) (by norm_num)
      (by norm_num)

/-- **C115** (counter). The state from which a ChaCha block is computed contains key and counter: no two blocks of a stream before the
wrap-around after `2^64` blocks, and no two streams, start from the same state. -/
theorem C115_counter (key key' : List UInt32) (hk : key.length = 8) (hk' : key'.length = 8) (c c' : UInt64)
    (h : ChaCha.start key c = ChaCha.start key' c') : key = key' ∧ c = c' := by
  obtain ⟨h1, h2⟩ := List.append_inj h (by simp [hk, hk'])
  refine ⟨(List.append_inj h1 rfl).2, ?_⟩
  simp only [List.cons.injEq, and_true] at h2
  obtain ⟨e1, e2⟩ := h2
  have e1 := congrArg UInt32.toNat e1
  have e2 := congrArg UInt32.toNat e2
  simp only [UInt64.toNat_toUInt32, UInt64.toNat_shiftRight] at e1 e2
  rw [show (32 : UInt64).toNat % 64 = 32 from rfl, Nat.shiftRight_eq_div_pow, Nat.shiftRight_eq_div_pow] at e2
  have b := c.toNat_lt
  have b' := c'.toNat_lt
  exact UInt64.toNat.inj (by omega)

/-! ### SHA-512 -/

theorem Sha512.words_inj {l l' : List UInt8} (h8 : 8 ∣ l.length) (hl : l.length = l'.length) (h : words l = words l') : l = l' := by
  obtain ⟨k, hk⟩ := h8
  have hk' : l.length / 8 = k := by omega
  refine chunks_inj 8 (by decide) k l l' (by omega) (by omega) fun i hi => ?_
  unfold words at h
  rw [← hl, hk', List.map_inj_left] at h
  have hv := congrArg UInt64.toNat (h i (List.mem_range.2 hi))
  have hlen : ∀ x : List UInt8, x.length = l.length → ((x.drop (8 * i)).take 8).reverse.length = 8 := by
    intro x hx
    simp only [List.length_reverse, List.length_take, List.length_drop]
    omega
  have hlt : ∀ x : List UInt8, x.length = l.length → Codec.leVal ((x.drop (8 * i)).take 8).reverse < 2 ^ 64 := by
    intro x hx
    have := Codec.leVal_lt ((x.drop (8 * i)).take 8).reverse
    rw [hlen x hx] at this
    exact this
  rw [UInt64.toNat_ofNat_of_lt' (hlt l rfl), UInt64.toNat_ofNat_of_lt' (hlt l' hl.symm)] at hv
  exact List.reverse_injective (leVal_inj (by rw [hlen l rfl, hlen l' hl.symm]) hv)

/-- A call of the compression function of SHA-512: state and block. -/
structure Spec.ShaCall where
  h : List UInt64
  m : List UInt64
deriving DecidableEq

/-- Its value. -/
def Spec.ShaCall.out (c : Spec.ShaCall) : List UInt64 := Sha512.compress c.h c.m

/-- The calls made for a padded message, from the state `h`. -/
def Spec.shaCalls (h : List UInt64) (l : List UInt8) : List Spec.ShaCall :=
  if l.length < 128 then []
  else ⟨h, Sha512.words (l.take 128)⟩ :: Spec.shaCalls (Sha512.compress h (Sha512.words (l.take 128))) (l.drop 128)
termination_by l.length
decreasing_by simp; omega

/-- The calls made for hashing `msg`: the message is followed by the byte 80, zeros and its length in bits. -/
def Spec.shaTrace (msg : List UInt8) : List Spec.ShaCall := Spec.shaCalls Sha512.iv (Sha512.pad msg)

theorem shaCalls_nil {l : List UInt8} (h : l.length < 128) (st : List UInt64) : Spec.shaCalls st l = [] := by
  rw [Spec.shaCalls, if_pos h]

theorem shaCalls_cons {l : List UInt8} (h : ¬ l.length < 128) (st : List UInt64) :
    Spec.shaCalls st l = ⟨st, Sha512.words (l.take 128)⟩ ::
      Spec.shaCalls (Sha512.compress st (Sha512.words (l.take 128))) (l.drop 128) := by
  rw [Spec.shaCalls, if_neg h]

theorem sha_last : ∀ (fuel : ℕ) (h : List UInt64) (a b : List UInt8), a.length + b.length ≤ 128 * fuel → 128 ∣ a.length → b.length = 128 →
    ∃ c ∈ Spec.shaCalls h (a ++ b), c.out = Sha512.absorb fuel h (a ++ b) ∧ c.m = Sha512.words b
  | 0, h, a, b, hf, _, hb => by omega
  | fuel + 1, h, a, b, hf, ha, hb => by
    have hl : ¬ (a ++ b).length < 128 := by rw [List.length_append]; omega
    rw [shaCalls_cons hl, Sha512.absorb, if_neg hl]
    by_cases h0 : a.length = 0
    · rw [List.length_eq_zero_iff] at h0
      subst h0
      rw [List.nil_append, List.take_of_length_le hb.le]
      refine ⟨_, List.mem_cons_self, ?_, rfl⟩
      rw [List.drop_of_length_le hb.le]
      cases fuel with
      | zero => rfl
      | succ f => rw [Sha512.absorb, if_pos (by simp)]; rfl
    · have ha' : 128 ≤ a.length := by obtain ⟨k, hk⟩ := ha; omega
      rw [List.drop_append_of_le_length ha']
      obtain ⟨c, hc, h1, h2⟩ := sha_last fuel (Sha512.compress h (Sha512.words ((a ++ b).take 128))) (a.drop 128) b
        (by rw [List.length_drop]; omega) (by rw [List.length_drop]; exact Nat.dvd_sub ha (dvd_refl _)) hb
      exact ⟨c, List.mem_cons_of_mem _ hc, h1, h2⟩

theorem sha_collision : ∀ (fuel : ℕ) (h h' : List UInt64) (l l' : List UInt8), l.length ≤ 128 * fuel → 128 ∣ l.length → l.length = l'.length →
    Sha512.absorb fuel h l = Sha512.absorb fuel h' l' →
    (h = h' ∧ l = l') ∨ ∃ x ∈ Spec.shaCalls h l, ∃ y ∈ Spec.shaCalls h' l', x ≠ y ∧ x.out = y.out
  | 0, h, h', l, l', hf, hd, hl, he => by
    have h0 : l = [] := List.length_eq_zero_iff.1 (by omega)
    have h0' : l' = [] := List.length_eq_zero_iff.1 (by omega)
    subst h0 h0'
    exact Or.inl ⟨he, rfl⟩
  | fuel + 1, h, h', l, l', hf, hd, hl, he => by
    by_cases h128 : l.length < 128
    · have h0 : l = [] := List.length_eq_zero_iff.1 (by obtain ⟨k, hk⟩ := hd; omega)
      have h0' : l' = [] := List.length_eq_zero_iff.1 (by rw [← hl, h0]; rfl)
      subst h0 h0'
      rw [Sha512.absorb, Sha512.absorb, if_pos (by simp), if_pos (by simp)] at he
      exact Or.inl ⟨he, rfl⟩
    · have h128' : ¬ l'.length < 128 := hl ▸ h128
      rw [shaCalls_cons h128, shaCalls_cons h128']
      rw [Sha512.absorb, Sha512.absorb, if_neg h128, if_neg h128'] at he
      rcases sha_collision fuel _ _ (l.drop 128) (l'.drop 128) (by rw [List.length_drop]; omega)
        (by rw [List.length_drop]; exact Nat.dvd_sub hd (dvd_refl _)) (by rw [List.length_drop, List.length_drop, hl]) he with
        ⟨hc, hdr⟩ | ⟨x, hx, y, hy, hne, ho⟩
      · by_cases hh : h = h' ∧ l = l'
        · exact Or.inl hh
        · refine Or.inr ⟨_, List.mem_cons_self, _, List.mem_cons_self, fun e => hh ?_, hc⟩
          refine ⟨congrArg Spec.ShaCall.h e, ?_⟩
          have ht := Sha512.words_inj (by rw [List.length_take, min_eq_left (by omega)]; decide)
            (by rw [List.length_take, List.length_take, hl]) (congrArg Spec.ShaCall.m e)
          rw [← List.take_append_drop 128 l, ← List.take_append_drop 128 l', ht, hdr]
      · exact Or.inr ⟨x, List.mem_cons_of_mem _ hx, y, List.mem_cons_of_mem _ hy, hne, ho⟩

theorem pad_length (l : List UInt8) : (Sha512.pad l).length = l.length + 17 + (239 - l.length % 128) % 128 := by
  simp only [Sha512.pad, List.length_append, List.length_replicate, List.length_reverse, Codec.length_leBytes, List.length_cons,
    List.length_nil]
  omega

theorem pad_dvd (l : List UInt8) : 128 ∣ (Sha512.pad l).length := by
  rw [pad_length]
  omega

theorem compress_length {h m : List UInt64} (hh : h.length = 8) : (Sha512.compress h m).length = 8 := by
  have key : ∀ (ks : List UInt64) (st : List UInt64 × List UInt64), st.1.length = 8 → (ks.foldl Sha512.round st).1.length = 8 := by
    intro ks
    induction ks with
    | nil => exact fun st h => h
    | cons k ks ih => exact fun st _ => ih _ rfl
  rw [Sha512.compress, List.length_zipWith, hh, key _ _ hh, min_self]

theorem absorb_length : ∀ (fuel : ℕ) (h : List UInt64) (l : List UInt8), h.length = 8 → (Sha512.absorb fuel h l).length = 8
  | 0, _, _, hh => hh
  | fuel + 1, h, l, hh => by
    rw [Sha512.absorb]
    split
    · exact hh
    · exact absorb_length fuel _ _ (compress_length hh)

theorem hash_state {m m' : List UInt8} (h : Sha512.hash m = Sha512.hash m') : Sha512.state m = Sha512.state m' := by
  have hlen : ∀ x, (Sha512.state x).length = 8 := fun x => absorb_length _ _ _ rfl
  have hv := congrArg Subtype.val h
  simp only [Sha512.hash] at hv
  refine List.ext_getElem (by rw [hlen, hlen]) fun i h1 h2 => ?_
  have h8 : i < 8 := by rw [hlen] at h1; exact h1
  have key : ∀ (f g : ℕ → List UInt8), (∀ i, (f i).length = 8) → (∀ i, (g i).length = 8) → ∀ js : List ℕ,
      js.flatMap f = js.flatMap g → ∀ i ∈ js, f i = g i := by
    intro f g hf hg js
    induction js with
    | nil => intro _ i hi; cases hi
    | cons j js ih =>
      intro e i hi
      rw [List.flatMap_cons, List.flatMap_cons] at e
      obtain ⟨e1, e2⟩ := List.append_inj e (by rw [hf, hg])
      rcases List.mem_cons.1 hi with rfl | hi
      · exact e1
      · exact ih e2 i hi
  have hi := key _ _ (fun i => by simp [Codec.length_leBytes]) (fun i => by simp [Codec.length_leBytes]) _ hv i (List.mem_range.2 h8)
  have hn := congrArg Codec.leVal (List.reverse_injective hi)
  rw [Codec.leVal_leBytes _ _ (UInt64.toNat_lt _), Codec.leVal_leBytes _ _ (UInt64.toNat_lt _)] at hn
  have := UInt64.toNat_inj.1 hn
  rwa [List.getD_eq_getElem?_getD, List.getD_eq_getElem?_getD, List.getElem?_eq_getElem h1, List.getElem?_eq_getElem h2] at this

/-- **C115** (SHA-512). Two different messages of less than `2^125` bytes with the same digest contain a collision of the compression
function. -/
theorem C115_sha (m m' : List UInt8) (hm : m.length < 2 ^ 125) (hm' : m'.length < 2 ^ 125) (hne : m ≠ m')
    (h : Sha512.hash m = Sha512.hash m') : ∃ x ∈ Spec.shaTrace m, ∃ y ∈ Spec.shaTrace m', x ≠ y ∧ x.out = y.out := by
  have hs := hash_state h
  have hfuel : ∀ x : List UInt8, (Sha512.pad x).length ≤ 128 * (x.length + 2) := by
    intro x
    rw [pad_length]
    omega
  unfold Spec.shaTrace
  by_cases hl : m.length = m'.length
  · have hp : (Sha512.pad m).length = (Sha512.pad m').length := by rw [pad_length, pad_length, hl]
    rw [Sha512.state, Sha512.state, ← hl] at hs
    rcases sha_collision _ _ _ _ _ (hfuel m) (pad_dvd m) hp hs with ⟨-, h2⟩ | h
    · refine absurd ?_ hne
      unfold Sha512.pad at h2
      rw [List.append_assoc, List.append_assoc, List.append_assoc, List.append_assoc] at h2
      exact (List.append_inj h2 hl).1
    · exact h
  · have hsplit : ∀ x : List UInt8, ∃ a b : List UInt8, Sha512.pad x = a ++ b ∧ 128 ∣ a.length ∧ b.length = 128 ∧
        ∃ d, b = d ++ (Codec.leBytes 16 (8 * x.length)).reverse := by
      intro x
      have hd := pad_dvd x
      have hge : 128 ≤ (Sha512.pad x).length := by
        obtain ⟨k, hk⟩ := hd
        have := pad_length x
        omega
      refine ⟨(Sha512.pad x).take ((Sha512.pad x).length - 128), (Sha512.pad x).drop ((Sha512.pad x).length - 128),
        (List.take_append_drop _ _).symm, ?_, ?_, ?_⟩
      · rw [List.length_take, min_eq_left (Nat.sub_le _ _)]
        exact Nat.dvd_sub hd (dvd_refl _)
      · rw [List.length_drop]; omega
      · have hc : (x ++ [0x80] ++ List.replicate ((239 - x.length % 128) % 128) 0 : List UInt8).length + 16 = (Sha512.pad x).length := by
          rw [pad_length]
          simp only [List.length_append, List.length_replicate, List.length_cons, List.length_nil]
          omega
        refine ⟨(x ++ [0x80] ++ List.replicate ((239 - x.length % 128) % 128) 0 : List UInt8).drop ((Sha512.pad x).length - 128), ?_⟩
        generalize hN : (Sha512.pad x).length - 128 = N
        rw [Sha512.pad, List.drop_append_of_le_length (by omega)]
    obtain ⟨a, b, e, ha, hb, d, hd⟩ := hsplit m
    obtain ⟨a', b', e', ha', hb', d', hd'⟩ := hsplit m'
    have hf := hfuel m
    have hf' := hfuel m'
    rw [Sha512.state, Sha512.state] at hs
    rw [e] at hs hf ⊢
    rw [e'] at hs hf' ⊢
    rw [List.length_append] at hf hf'
    obtain ⟨c, hc, h1, h2⟩ := sha_last (m.length + 2) Sha512.iv a b hf ha hb
    obtain ⟨c', hc', h1', h2'⟩ := sha_last (m'.length + 2) Sha512.iv a' b' hf' ha' hb'
    refine ⟨c, hc, c', hc', fun he => hl ?_, by rw [h1, h1', hs]⟩
    have hw : Sha512.words b = Sha512.words b' := by rw [← h2, ← h2', he]
    have hbb := Sha512.words_inj (by rw [hb]; decide) (by rw [hb, hb']) hw
    rw [hd, hd'] at hbb
    have hq := (List.append_inj' hbb (by simp [Codec.length_leBytes])).2
    have hv := congrArg Codec.leVal (List.reverse_injective hq)
    rw [Codec.leVal_leBytes _ _ (by norm_num; omega), Codec.leVal_leBytes _ _ (by norm_num; omega)] at hv
    omega

/-! ### known answers -/

/-- **C115** (known answers). BLAKE2s of "abc" (RFC 7693, appendix B), BLAKE2s of the empty string with a personalisation, the beginning
of the first block of ChaCha20 under the zero key, the bytes drawn from it, the beginning of the block number `2^32`, SHAKE256 of the empty string (FIPS 202) and SHA-512 of "abc" (FIPS 180-4). -/
theorem C115_answers :
    Blake2s.hash (List.replicate 8 0) (ascii "abc") =
      [2355006544, 3792993330, 2737547233, 793111374, 545998135, 691721886, 1285265741, 2186897286] ∧
    Blake2s.hash (ascii "OnePiece") [] = [213767662, 3648121027, 3623206557, 3899988107, 952058592, 4160442793, 343280862, 1654990150] ∧
    (ChaCha.block (List.replicate 8 0) 0).take 4 = [0xade0b876, 0x903df1a0, 0xe56a5d40, 0x28bd8653] ∧
    (List.range 4).map (ChaCha.byte (List.replicate 8 0)) = [0x76, 0xa0, 0x40, 0x53] ∧
    (ChaCha.block (List.replicate 8 0) (2 ^ 32)).take 4 = [0x3a1db43d, 0x2829d3a0, 0x25f2e65d, 0xd54be2e6] ∧
    (Keccak.shake256 []).1 = ([70, 185, 221, 43, 11, 168, 141, 19, 35, 59, 63, 235, 116, 62, 235, 36,
      63, 205, 82, 234, 98, 184, 27, 130, 181, 12, 39, 100, 110, 213, 118, 47] : List UInt8) ∧
    (Sha512.hash (ascii "abc")).1 = ([221, 175, 53, 161, 147, 97, 122, 186, 204, 65, 115, 73, 174, 32, 65, 49,
      18, 230, 250, 78, 137, 169, 126, 162, 10, 158, 238, 230, 75, 85, 211, 154,
      33, 146, 153, 42, 39, 79, 193, 168, 54, 186, 60, 35, 163, 254, 235, 189,
      69, 77, 68, 35, 100, 60, 232, 14, 42, 154, 201, 79, 165, 76, 164, 159] : List UInt8) := by
  refine ⟨?_, ?_, ?_, ?_, ?_, ?_, ?_⟩ <;> decide +kernel

end Verif
