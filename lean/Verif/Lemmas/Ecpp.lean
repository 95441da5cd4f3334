import Verif.Lemmas.Ec
import Verif.Props.Field
import Mathlib.FieldTheory.Finite.Basic

/-!
# Primality by elliptic curves (Goldwasser–Kilian) and by Pocklington's criterion

The certificate below shows that the largest prime factor of the cofactor of the second group of BLS12-381 is prime.
-/

namespace Verif

open WeierstrassCurve

set_option linter.unusedSectionVars false

/-- Arithmetic modulo `n`. -/
def opsN (n : ℕ) : FieldOps ℕ where
  add a b := (a + b) % n
  sub a b := (a + (n - b % n)) % n
  mul a b := a * b % n
  unit a := Nat.gcd a n == 1
  eq a b := a % n == b % n

variable {F : Type} [Field F] [DecidableEq F]

theorem cast_mod_n {n : ℕ} (hp : (n : F) = 0) (a : ℕ) : ((a % n : ℕ) : F) = a := by
  conv_rhs => rw [← Nat.div_add_mod a n]
  rw [Nat.cast_add, Nat.cast_mul, hp, zero_mul, zero_add]

/-- The arithmetic is right in every field in which `n` is zero. -/
theorem opsN_sound {n : ℕ} (h0 : 0 < n) (hp : (n : F) = 0) : (opsN n).Sound (fun a : ℕ => (a : F)) where
  add a b := by simp only [opsN, cast_mod_n hp, Nat.cast_add]
  sub a b := by
    have : b % n ≤ n := (Nat.mod_lt _ h0).le
    simp only [opsN, cast_mod_n hp, Nat.cast_add, Nat.cast_sub this, hp]
    ring
  mul a b := by simp only [opsN, cast_mod_n hp, Nat.cast_mul]
  unit a h := by
    simp only [opsN, beq_iff_eq] at h
    intro h0
    have hb := Nat.gcd_eq_gcd_ab a n
    rw [h] at hb
    have := congrArg (Int.cast : ℤ → F) hb
    push_cast at this
    rw [h0, hp] at this
    simp at this
  eq a b h := by
    simp only [opsN, beq_iff_eq] at h
    rw [← cast_mod_n hp a, h, cast_mod_n hp]

/-- The point lies on the curve and the curve is smooth, modulo every prime factor of `n`. -/
def onCurve (n a b x y : ℕ) : Bool :=
  (opsN n).unit (64 * a ^ 3 + 432 * b ^ 2) && (opsN n).eq (y ^ 2) (x ^ 3 + a * x + b)

theorem onCurve_sound {n a b x y : ℕ} (h0 : 0 < n) (hp : (n : F) = 0) (h : onCurve n a b x y = true) :
    (swCurve (a : F) (b : F)).Nonsingular (x : F) (y : F) := by
  rw [onCurve, Bool.and_eq_true] at h
  have h1 := (opsN_sound h0 hp).unit _ h.1
  have h2 := (opsN_sound h0 hp).eq _ _ h.2
  push_cast at h1 h2
  exact (sw_nonsingular h1).2 h2

/-- Goldwasser and Kilian's criterion with the bound `2 s + 1` for the number of points modulo a prime factor `s`. -/
theorem prime_of_curve {n : ℕ} (q a b x y f : ℕ) (hq : q.Prime) (hn : 1 < n) (hlt : n < (q / 4) ^ 2)
    (hc : onCurve n a b x y = true) (ho : jOrder (opsN n) a x y 1 f q = true) : n.Prime := by
  by_contra hnp
  have hs := Nat.minFac_prime (show n ≠ 1 by omega)
  have hsq := Nat.minFac_sq_le_self (show 0 < n by omega) hnp
  have := Fact.mk hs
  have hp : (n : ZMod n.minFac) = 0 := (ZMod.natCast_eq_zero_iff _ _).2 (Nat.minFac_dvd _)
  have hP := onCurve_sound (by omega) hp hc
  have hle := sw_order_le hq _ (Affine.Point.some_ne_zero hP)
    (jOrder_sound (opsN_sound (by omega) hp) (by simp) hP hq.one_lt.le ho)
  rw [Nat.card_zmod] at hle
  have h2 : n.minFac < q / 4 := lt_of_pow_lt_pow_left₀ 2 (Nat.zero_le _) (hsq.trans_lt hlt)
  omega

/-- Pocklington's criterion with one prime factor `q > √n` of `n - 1`. -/
theorem prime_of_pocklington {n : ℕ} (q c w f : ℕ) (hq : q.Prime) (hn : 1 < n) (hlt : n < q ^ 2)
    (hf : c * q < 2 ^ f) (h1 : powMod n f w (c * q) % n = 1) (h2 : Nat.gcd (powMod n f w c % n + n - 1) n = 1) : n.Prime := by
  by_contra hnp
  have hs := Nat.minFac_prime (show n ≠ 1 by omega)
  have hsq := Nat.minFac_sq_le_self (show 0 < n by omega) hnp
  have := Fact.mk hs
  have hp : (n : ZMod n.minFac) = 0 := (ZMod.natCast_eq_zero_iff _ _).2 (Nat.minFac_dvd _)
  have hpow : ∀ e, e < 2 ^ f → ((powMod n f w e % n : ℕ) : ZMod n.minFac) = (w : ZMod n.minFac) ^ e := by
    intro e he
    have e1 := congrArg (ZMod.castHom (Nat.minFac_dvd n) (ZMod n.minFac)) (powMod_eq n f w e he)
    rw [map_natCast, map_pow, map_natCast] at e1
    rw [cast_mod_n hp, e1]
  have hcf : c < 2 ^ f := lt_of_le_of_lt (Nat.le_mul_of_pos_right c hq.pos) hf
  have e1 : (w : ZMod n.minFac) ^ (c * q) = 1 := by rw [← hpow _ hf, h1, Nat.cast_one]
  have e2 : (w : ZMod n.minFac) ^ c ≠ 1 := by
    intro e
    rw [← hpow _ hcf] at e
    have : ((powMod n f w c % n + n - 1 : ℕ) : ZMod n.minFac) = 0 := by
      rw [Nat.add_sub_assoc hn.le, Nat.cast_add, e, Nat.cast_sub hn.le, hp]
      simp
    have hd := (ZMod.natCast_eq_zero_iff _ _).1 this
    have := Nat.dvd_gcd hd (Nat.minFac_dvd n)
    rw [h2] at this
    exact hs.one_lt.ne' (Nat.dvd_one.1 this)
  have ho : orderOf ((w : ZMod n.minFac) ^ c) = q := by
    have := Fact.mk hq
    exact orderOf_eq_prime (by rw [← pow_mul]; exact e1) e2
  have hw : (w : ZMod n.minFac) ^ c ≠ 0 := by
    intro h0
    have : (w : ZMod n.minFac) ^ (c * q) = 0 := by rw [pow_mul, h0, zero_pow hq.ne_zero]
    rw [this] at e1
    exact zero_ne_one e1
  have hd : q ∣ n.minFac - 1 := by
    rw [← ho]
    exact orderOf_dvd_of_pow_eq_one (ZMod.pow_card_sub_one_eq_one hw)
  have hle := Nat.le_of_dvd (by have := hs.one_lt; omega) hd
  have h3 : n.minFac < q := lt_of_pow_lt_pow_left₀ 2 (Nat.zero_le _) (hsq.trans_lt hlt)
  omega

/-! ### the certificate -/

theorem prime_0 : Nat.Prime 163027 := by norm_num

theorem prime_1 : Nat.Prime 0x78b9e019 :=
  prime_of_pocklington 0x27cd3 0x3088 2 31 prime_0 (by decide +kernel) (by decide +kernel)
    (by decide +kernel) (by decide +kernel) (by decide +kernel)

theorem prime_2 : Nat.Prime 0xccab1dea63 :=
  prime_of_pocklington 0x78b9e019 0x1b2 165 40 prime_1 (by decide +kernel) (by decide +kernel)
    (by decide +kernel) (by decide +kernel) (by decide +kernel)

theorem prime_3 : Nat.Prime 0x3acaae3f0bfc5b17 :=
  prime_of_pocklington 0xccab1dea63 0x498972 165 62 prime_2 (by decide +kernel) (by decide +kernel)
    (by decide +kernel) (by decide +kernel) (by decide +kernel)

theorem prime_4 : Nat.Prime 0xb10c04f6b2f2514097c194e2abd :=
  prime_of_pocklington 0x3acaae3f0bfc5b17 0x302ecd9cb0a4 222 108 prime_3 (by decide +kernel) (by decide +kernel)
    (by decide +kernel) (by decide +kernel) (by decide +kernel)

theorem prime_5 : Nat.Prime 0x94776ee11270fa92090a275e80f8fb221 :=
  prime_of_pocklington 0xb10c04f6b2f2514097c194e2abd 0xd6aca0 755 132 prime_4 (by decide +kernel) (by decide +kernel)
    (by decide +kernel) (by decide +kernel) (by decide +kernel)

theorem prime_6 : Nat.Prime 0x17190f92fd295efdfc6d3a368de603416d9ed09a37baf789 :=
  prime_of_curve 0x94776ee11270fa92090a275e80f8fb221
    0x0
    0x1493627c6add2eaf17d02cfa7bb8ceed77963bc05a68aaca
    0xc46228617e8c30942b1f86236dec7b1c0840cc96a8b8078
    0xda0686f5abe2c423516bb14a97aa4abb2461d61be7c0f60
    132 prime_5 (by decide +kernel) (by decide +kernel) (by decide +kernel) (by decide +kernel)

theorem prime_7 : Nat.Prime 0x2ad972264e3d0adc962f825905497eeb04559b494816bad7668e79 :=
  prime_of_curve 0x17190f92fd295efdfc6d3a368de603416d9ed09a37baf789
    0x157f44878355f1826b873cd3a169fcdc52f3638bdd277f211a30c5
    0x21d8ed0a007aa3e172e185aea18192b61f614bccbdb291423ac021
    0xe7d71f1684c14988c970ed22523cfff78316fd051e0a1ee63d803
    0xa9cf19044b7aafbb8719088710c885f738750d9b4a0e8c77f82a0
    189 prime_6 (by decide +kernel) (by decide +kernel) (by decide +kernel) (by decide +kernel)

theorem prime_8 : Nat.Prime 0x39e9e447c5be80ae22fc362c51255589a3dbb3e10b6eb887209c8f8b :=
  prime_of_pocklington 0x2ad972264e3d0adc962f825905497eeb04559b494816bad7668e79 0x15a 479 222 prime_7 (by decide +kernel) (by decide +kernel)
    (by decide +kernel) (by decide +kernel) (by decide +kernel)

theorem prime_9 : Nat.Prime 0xc253d0fcd48639c84f6449c6b4482c3c3b2b7ace198f4f1b09c818db63 :=
  prime_of_curve 0x39e9e447c5be80ae22fc362c51255589a3dbb3e10b6eb887209c8f8b
    0x556449d7e0c885a9eadc5e6368be9ea9c7bbd9054efcd4c8722167189d
    0xbe7c08fed7b82a6045e78e0dbbbaa30a1c16648c6e291200b14787d547
    0xb8cd928d6b0809f19457f73be62892369b046de4664d417449d6da4843
    0x778fd84a92414a9b1c874bf84a82cd329c5b7a7e643aeabde2d0e4805b
    222 prime_8 (by decide +kernel) (by decide +kernel) (by decide +kernel) (by decide +kernel)

theorem prime_10 : Nat.Prime 0x520ae5fbdf29f6cd8cf856bbbaa13bfd5c36544675482c5783c9053a05b32f8d1b3 :=
  prime_of_curve 0xc253d0fcd48639c84f6449c6b4482c3c3b2b7ace198f4f1b09c818db63
    0x2e2040c03f96f6d6dc100bc2718c94f0257567814081c7aeefc4afddb2f9f06a2dd
    0x7ca0daca627d26c57a2f48824a51fbd8e5c8ccf17e1fea7ca4ddfc969a63702b3
    0x2dfdc733b3365fedfe32ce364e412ead8de2c7a2e8ddf0cd07d71ebca4f755810fa
    0x22eeffa052b329efd2946379781693eeb05c3f2b2774875718a239fc9ed32c09b5a
    232 prime_9 (by decide +kernel) (by decide +kernel) (by decide +kernel) (by decide +kernel)

theorem prime_11 : Nat.Prime 0x1456625454c3070ade2e780ea4852dee55870fc470fb37cfc3cf433d0def1d3cbf4a66cb5778b130ec4d :=
  prime_of_curve 0x520ae5fbdf29f6cd8cf856bbbaa13bfd5c36544675482c5783c9053a05b32f8d1b3
    0x408ddf3511c264f1de30577a583e9a911b0d05a4e9e08daf143175701694a474465a1103a3b695645fe
    0x3fd2cefece7b03ace228fd118b5abfdb77f8ed6367ac8742c04087b838569cea80e2c4acf2d6e18842a
    0xdd9d2324f23728dc07a28771ebd674b07ea2a239f6461f085250f26cac8b5115c6cd2cac5aa91a31752
    0x13f2e110be3a122366a2a045469d5c82263ef876a88ce8c8c180cf32db4eb92d120d8ca7b163451b0020
    267 prime_10 (by decide +kernel) (by decide +kernel) (by decide +kernel) (by decide +kernel)

theorem prime_12 : Nat.Prime 0x8f2810259ca4cf927ff319171211754fa608b4fcc3483b172fac2357bfad021dcb1a91d2caf851ef41f245 :=
  prime_of_curve 0x1456625454c3070ade2e780ea4852dee55870fc470fb37cfc3cf433d0def1d3cbf4a66cb5778b130ec4d
    0x6ecd3dd922ad43f4a8cfe655c77a944cbf7ca3c7bc04b7c48c2aea8ab10bae033710bb118eabc54a476b16
    0x0
    0x3396860d09d122ef772ec20df1897a96c1b0b95ab84c8af9c4569705af004827d2fe137ecb4da0f4c2aed3
    0x5a5b213cc0ea6a30998a20e52de59b2f308c4420e71caa1a30b08389cc4d7823a55a8eabae6d771c6c9cbb
    333 prime_11 (by decide +kernel) (by decide +kernel) (by decide +kernel) (by decide +kernel)

theorem prime_13 : Nat.Prime 0x51adbe86c5071882533f66c2737d1529c699c5e132f1a9e8a1d8ce8e249261943fe72995fbbfc2c9656cad4d6168b0ca35 :=
  prime_of_curve 0x8f2810259ca4cf927ff319171211754fa608b4fcc3483b172fac2357bfad021dcb1a91d2caf851ef41f245
    0x2ac2b33a40573a3961c2ee611a9b9fc200cda6ced7f1bb52050994d86cb7aeb55dcf378456e42026348c0664d89693ca85
    0x4a73853716f6d8d1b7ee6dfb2eea6de421ab4c7c110cb3abd3abe3d0d20fe3df57abe677eda3c954c49c67f8b4b853bc4d
    0x4aed33f4f907d0b369ffd6b7ebb913522a8c8b166b03a27f4d86c3d9bf84ea6f68872c8c50b54c89bbda5337f59b21f3d3
    0x732dc52e722ada6f09c6e0ccf052dcf23168c527d272148cf8d7ef5f0c3d2dbedec3428085ff2ef9fdc7cabade1cada3c
    344 prime_12 (by decide +kernel) (by decide +kernel) (by decide +kernel) (by decide +kernel)

theorem prime_14 : Nat.Prime 0x1ecc704f637a0ec5823838403616ef96e38f232dea4408fc51330d87748a56f1caa8045f023c559183ef0d857ce3dddc70989b55 :=
  prime_of_curve 0x51adbe86c5071882533f66c2737d1529c699c5e132f1a9e8a1d8ce8e249261943fe72995fbbfc2c9656cad4d6168b0ca35
    0x2b08070823bfda0782a40f2b5b2401103df08fd51f58d637b726b51be23278de7af67d8eb34b2cd42e913da4eb850fbc38ca5b8
    0x0
    0x1d110e858fdfb4af2b32caca77b1aced4e26d5397b2013d59e9e5548b5392cbe14ebd6a7e246230172fbdaa31c1a98bd61d9fb18
    0xabec39d39777ecb05676ea456da27839f0d0eb1606151bf71459fd8ba2125372f397c8a518d39b471abf97f19af71c99c0e217f
    391 prime_13 (by decide +kernel) (by decide +kernel) (by decide +kernel) (by decide +kernel)

theorem prime_15 : Nat.Prime 0x3bac1999d0bc7c9eac4cecfc68cc703458e55428f5e3d168dd532801413bff2c74a63f2043447a026539866a186bccb3490b28431 :=
  prime_of_curve 0x1ecc704f637a0ec5823838403616ef96e38f232dea4408fc51330d87748a56f1caa8045f023c559183ef0d857ce3dddc70989b55
    0x2f2cc92df44c83b4c02846b54fcb4de8ef948ad8002070002127a148f6baf59ba32c516da2019a48708a20d6b5909292ebee46c37
    0xacbf6afae92924b19d6c91f534082390819fa52788c4f88adcdcb9b72fa80a5974d2ae8ae0d378a29f5607c53fc0eb2754e0f4f
    0x2a9a93c8b8f75a0953a24110485cadae63763f0b0422f3dc626f61f7cf5d7fc4a7f22a48a7ff464c886fbe1425648cf482738329c
    0x1f7ad36f2b1cb1aae85b7a1e4e6e3e63f4c194adf01aed74701e7b35df4070cfa179f71c19bcc7ae0b8d4a603196bf3591ddc7eed
    413 prime_14 (by decide +kernel) (by decide +kernel) (by decide +kernel) (by decide +kernel)

theorem prime_16 : Nat.Prime 0x8d9f503deeeb5d5c423572788bea4d6ae0490c5afca1eeb2a9d75bb98b95878afab9c0da5cf222c377d87384d026cd73826d177200c0d3b1 :=
  prime_of_curve 0x3bac1999d0bc7c9eac4cecfc68cc703458e55428f5e3d168dd532801413bff2c74a63f2043447a026539866a186bccb3490b28431
    0x5da011f9bfc3c32406af294d8fa0ebefa8816af081859134ccb80541bfdff49fddb9d47a53fc5a69e201e9080017b014cf79caef5524f715
    0x0
    0x74286f7b893ad13383b8ef3c4f0ea51e8b36c0395b7b0a1bbf0bdf5b79a295870c578183e0dedf38577315d88f2b06ad4c3497289ca8ca23
    0x1d551771eaf56d48f3f1484a4effaf3d879ea0e34a2025ca82cfe95a8ac96fbd4b83982d4aa797cb979ff2b4a7c17ee6dcab658ddcf4e9b9
    418 prime_15 (by decide +kernel) (by decide +kernel) (by decide +kernel) (by decide +kernel)

/-- The largest prime factor of the cofactor of the second group of BLS12-381. -/
def blsL : ℕ := 0x8d9f503deeeb5d5c423572788bea4d6ae0490c5afca1eeb2a9d75bb98b95878afab9c0da5cf222c377d87384d026cd73826d177200c0d3b1

theorem blsL_prime : blsL.Prime := prime_16

end Verif
