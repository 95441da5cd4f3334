import Verif.Props.Epoch
import Verif.Props.Ed25519

/-!
# EdDSA with the hash function written out: C115

Key generation and signing of the model give the answers of RFC 8032, 7.1, TEST 3.
-/

namespace Verif

open WeierstrassCurve

/-- The test that `n` times the base point has the Edwards coordinates `x`, `y`; `s`, `t` are its Weierstrass coordinates. -/
def edIs (n s t x y : ℕ) : Bool :=
  jIs (opsN edP) edWa edGx edGy 1 256 n s t && decide (s < edP ∧ t < edP ∧ x < edP ∧ y < edP ∧ t ≠ 0) &&
    decide (edC * (s + (edP - edWt)) % edP = x * t % edP ∧
      (s + (edP - edWt) + (edP - 1)) % edP = y * (s + (edP - edWt) + 1) % edP)

theorem edIs_sound {n s t x y : ℕ} (h : edIs n s t x y = true) :
    (edCompress (n • edBase)).1 = Codec.leBytes 32 (y + 2 ^ 255 * (x % 2)) := by
  simp only [edIs, Bool.and_eq_true, decide_eq_true_eq] at h
  obtain ⟨⟨h1, hs, ht, hx, hy, ht0⟩, h2, h3⟩ := h
  obtain ⟨hst, hm⟩ := jIs_sound (F := EdF) (b := ((edWb : ℕ) : EdF)) (opsN_sound (by decide +kernel) (ZMod.natCast_self edP))
    (by simp) edBase_on_curve h1
  have hcast : ∀ a b : ℕ, a % edP = b % edP → (a : EdF) = b := fun a b e => (ZMod.natCast_eq_natCast_iff _ _ _).2 e
  have e2 := hcast _ _ h2
  have e3 := hcast _ _ h3
  have hp : ((edP : ℕ) : EdF) = 0 := ZMod.natCast_self edP
  push_cast [Nat.cast_sub (show edWt ≤ edP by decide +kernel), Nat.cast_sub (show 1 ≤ edP by decide +kernel), hp] at e2 e3
  have h0 : ((t : ℕ) : EdF) ≠ 0 := by
    intro h
    rw [ZMod.natCast_eq_zero_iff] at h
    exact ht0 (Nat.eq_zero_of_dvd_of_lt h ht)
  have h0' := ed_u_ne (ed_montgomery.1 hst)
  have hxy : toEd (n • edBase) = ((x : EdF), (y : EdF)) := by
    rw [show n • edBase = Affine.Point.some _ _ hst from hm, toEd, Prod.mk.injEq]
    constructor
    · rw [div_eq_iff h0]
      linear_combination e2
    · rw [div_eq_iff h0']
      linear_combination e3
  have hv : (toEd (n • edBase)).2.val + 2 ^ 255 * ((toEd (n • edBase)).1.val % 2) = y + 2 ^ 255 * (x % 2) := by
    rw [hxy, ZMod.val_natCast_of_lt hx, ZMod.val_natCast_of_lt hy]
  exact congrArg (Codec.leBytes 32) hv

/-- RFC 8032, 7.1, TEST 3: secret key. -/
def rfcSeed : Bytes 32 := ⟨[197, 170, 141, 244, 63, 159, 131, 123, 237, 183, 68, 47, 49, 220, 183, 177, 102, 211, 133, 53, 7, 111, 9, 75, 133, 206, 58, 46, 11, 68, 88, 247], rfl⟩

/-- Public key. -/
def rfcPk : Bytes 32 := ⟨[252, 81, 205, 142, 98, 24, 161, 163, 141, 164, 126, 208, 2, 48, 240, 88, 8, 22, 237, 19, 186, 51, 3, 172, 93, 235, 145, 21, 72, 144, 128, 37], rfl⟩

/-- Signature of the message `af 82`. -/
def rfcSig : Bytes 64 := ⟨[98, 145, 214, 87, 222, 236, 36, 2, 72, 39, 230, 156, 58, 190, 1, 163, 12, 229, 72, 162, 132, 116, 58, 68, 94, 54, 128, 215, 219, 90, 195, 172, 24, 255, 155, 83, 141, 22, 242, 144, 174, 103, 247, 96, 152, 77, 198, 89, 74, 124, 21, 233, 113, 110, 210, 141, 192, 39, 190, 206, 234, 30, 196, 10], rfl⟩

theorem rfc_scalar : EdCurve.clamp (Codec.leVal ((Sha512.hash rfcSeed.1).1.take 32)) = 0x5ca91e9981a125131bf5c2c54e7f4dba113dc2155ba523908402d95e758b9a90 := by decide +kernel

theorem rfc_nonce : EdCurve.wide (Sha512.hash ((Sha512.hash rfcSeed.1).1.drop 32 ++ [0xaf, 0x82])) = 0x556b81d690c181c2f3f6b7456ef58ce776a9c0aaf52a93886a09216a2f00e7f := by decide +kernel

theorem rfc_key : edCompress (0x5ca91e9981a125131bf5c2c54e7f4dba113dc2155ba523908402d95e758b9a90 • edBase) = rfcPk := by
  refine Subtype.ext ((edIs_sound (s := 0x654da8846f6e33ca1aabd0e13f42b5404f26bfb7132f4664e9683ba273dcd71c) (t := 0x1837a92071b0fb0b4b661316bb35abe5a9169b31e8e8a75d82c2899492f9830b) (x := 0x61213aa2dc9d68833f65d1b48dcf859818236f1734e3e9b945a9ff5486cdbd02) (y := 0x258090481591eb5dac0333ba13ed160858f03002d07ea48da3a118628ecd51fc) (by decide +kernel)).trans ?_)
  decide +kernel

theorem rfc_R : edCompress (0x556b81d690c181c2f3f6b7456ef58ce776a9c0aaf52a93886a09216a2f00e7f • edBase) = EdCurve.fst32 rfcSig := by
  refine Subtype.ext ((edIs_sound (s := 0x66d9501a23b0f6e182994735cd389d531268d019c6285fa2ddd25030c26191c) (t := 0x7488a56f5b3992417bc1ec00ae04892851b0074e23dc4e211abade2a885b81bc) (x := 0x39a50ed09ff56e66f9db162c5fb6791a098f8f7962a1ed013293448bba5b444f) (y := 0x2cc35adbd780365e443a7484a248e50ca301be3a9ce627480224ecde57d69162) (by decide +kernel)).trans ?_)
  decide +kernel

theorem rfc_s : Codec.leBytes 32 ((EdCurve.wide (Sha512.hash ((EdCurve.fst32 rfcSig).1 ++ (rfcPk.1 ++ [0xaf, 0x82]))) * 0x5ca91e9981a125131bf5c2c54e7f4dba113dc2155ba523908402d95e758b9a90 + 0x556b81d690c181c2f3f6b7456ef58ce776a9c0aaf52a93886a09216a2f00e7f) % edL) =
    (EdCurve.snd32 rfcSig).1 := by decide +kernel

/-- Key generation and signing from their intermediate values. -/
theorem EdCurve.ops_values {E : Type} [AddCommGroup E] [DecidableEq E] (C : EdCurve E)
    (zs : List (List UInt8) → List (Bytes 64) → List (Bytes 32) → ℕ → ℕ) (seed pk : Bytes 32) (msg : List UInt8) (sig : Bytes 64) (a r : ℕ)
    (ha : EdCurve.clamp (Codec.leVal ((C.sha512 seed.1).1.take 32)) = a)
    (hr : EdCurve.wide (C.sha512 ((C.sha512 seed.1).1.drop 32 ++ msg)) = r)
    (hk : C.compress (a • C.base) = pk) (hR : C.compress (r • C.base) = EdCurve.fst32 sig)
    (hs : Codec.leBytes 32 ((EdCurve.wide (C.sha512 ((EdCurve.fst32 sig).1 ++ (pk.1 ++ msg))) * a + r) % edL) = (EdCurve.snd32 sig).1) :
    (C.ops zs).derivePk seed = pk ∧ (C.ops zs).sign (Bytes.append32 seed pk) msg = sig := by
  have hk' : (C.ops zs).derivePk seed = pk := by
    rw [← hk, ← ha]; rfl
  refine ⟨hk', ?_⟩
  have h1 : EdCurve.fst32 (Bytes.append32 seed pk) = seed := EdCurve.fst32_append _ _
  have h2 : EdCurve.snd32 (Bytes.append32 seed pk) = pk := EdCurve.snd32_append _ _
  simp only [EdCurve.ops, h1, h2, EdCurve.nonce, EdCurve.challenge, EdCurve.scalarOf, ha, hr, hR]
  apply Subtype.ext
  rw [Bytes.append32]
  simp only [hs]
  exact List.take_append_drop 32 sig.1

/-- **C115** (EdDSA). With SHA-512 written out, key generation and signing of the model give the answers of RFC 8032, 7.1, TEST 3. -/
theorem C115_eddsa (zs : List (List UInt8) → List (Bytes 64) → List (Bytes 32) → ℕ → ℕ) :
    ((ed25519 Sha512.hash).ops zs).derivePk rfcSeed = rfcPk ∧
    ((ed25519 Sha512.hash).ops zs).sign (Bytes.append32 rfcSeed rfcPk) [0xaf, 0x82] = rfcSig := by
  have h1 : (ed25519 Sha512.hash).sha512 = Sha512.hash := by rw [ed25519]
  have h2 : (ed25519 Sha512.hash).compress = edCompress := by rw [ed25519]
  have h3 : (ed25519 Sha512.hash).base = edBase := by rw [ed25519]
  refine EdCurve.ops_values (ed25519 Sha512.hash) zs rfcSeed rfcPk [0xaf, 0x82] rfcSig
    0x5ca91e9981a125131bf5c2c54e7f4dba113dc2155ba523908402d95e758b9a90 0x556b81d690c181c2f3f6b7456ef58ce776a9c0aaf52a93886a09216a2f00e7f ?_ ?_ ?_ ?_ ?_
  · rw [h1]; exact rfc_scalar
  · rw [h1]; exact rfc_nonce
  · rw [h2, h3]; exact rfc_key
  · rw [h2, h3]; exact rfc_R
  · rw [h1]; exact rfc_s

end Verif
