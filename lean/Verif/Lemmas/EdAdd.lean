import Verif.Lemmas.Edwards

/-!
# The addition law of Edwards

Addition of points of `edW` (chords and tangents) is the addition law of RFC 8032, §5.1.4, in Edwards coordinates.  The
coefficients in the proofs about chord and tangent come from division by the equations of the curve.
-/

namespace Verif

open WeierstrassCurve

/-- A root of `-1`. -/
def edI : ℕ := 0x2b8324804fc1df0b2b4d00993dfbd7a72f431806ad2fe478c4ee1b274a0ea0b0

theorem edI_sq : ((edI : ℕ) : EdF) ^ 2 = -1 := by
  have := edF_cast (m := edI ^ 2 + 1) (n := 0) (by decide +kernel)
  push_cast at this
  linear_combination this

theorem edD_not_square (w : EdF) : w ^ 2 ≠ edD := by
  intro h
  refine edDisc_not_square (edI * w * 486664) ?_
  have := edI_sq
  have hd := edD_eq
  linear_combination w ^ 2 * 486664 ^ 2 * this - 486664 ^ 2 * h - 486664 * hd

/-- The addition law is complete: its denominators do not vanish on the curve. -/
theorem ed_complete {x1 y1 x2 y2 : EdF} (h1 : EdEq x1 y1) (h2 : EdEq x2 y2) : (edD * x1 * x2 * y1 * y2) ^ 2 ≠ 1 := by
  intro h
  rw [EdEq] at h1 h2
  have hi := edI_sq
  generalize ((edI : ℕ) : EdF) = i at hi
  have hne : edD * x1 * x2 * y1 * y2 ≠ 0 := fun e => by rw [e] at h; simp at h
  generalize hD : edD * x1 * x2 * y1 * y2 = D at h hne
  have hx1 : x1 ≠ 0 := by rintro rfl; simp at hD; exact hne hD.symm
  have hy1 : y1 ≠ 0 := by rintro rfl; simp at hD; exact hne hD.symm
  have hx2 : x2 ≠ 0 := by rintro rfl; simp at hD; exact hne hD.symm
  have e1 : (i * x1 + D * y1) ^ 2 = edD * (x1 * y1 * (i * x2 + y2)) ^ 2 := by
    linear_combination (x1 ^ 2 - edD * (x1 * y1 * x2) ^ 2) * hi + (y1 ^ 2 - 1) * h + h1 - edD * x1 ^ 2 * y1 ^ 2 * h2
      - (2 * i * x1 * y1 + D + edD * x1 * x2 * y1 * y2) * hD
  have e2 : (i * x1 - D * y1) ^ 2 = edD * (x1 * y1 * (i * x2 - y2)) ^ 2 := by
    linear_combination (x1 ^ 2 - edD * (x1 * y1 * x2) ^ 2) * hi + (y1 ^ 2 - 1) * h + h1 - edD * x1 ^ 2 * y1 ^ 2 * h2
      + (2 * i * x1 * y1 - D - edD * x1 * x2 * y1 * y2) * hD
  have key : ∀ a b : EdF, a ^ 2 = edD * (x1 * y1 * b) ^ 2 → b = 0 := by
    intro a b hab
    by_contra hb
    have hz := mul_ne_zero (mul_ne_zero hx1 hy1) hb
    refine edD_not_square (a / (x1 * y1 * b)) ?_
    rw [div_pow, div_eq_iff (pow_ne_zero 2 hz), hab]
  have k1 := key _ _ e1
  have k2 := key _ _ e2
  have : (2 * i) * x2 = 0 := by linear_combination k1 + k2
  rcases mul_eq_zero.1 this with h | h
  · rcases mul_eq_zero.1 h with h | h
    · exact edF_two h
    · rw [h] at hi; simp at hi
  · exact hx2 h

/-- The addition law in terms of the coordinates of Montgomery. -/
theorem ed_add_core {u1 v1 u2 v2 u3 v3 : EdF} (h1 : v1 ^ 2 = u1 ^ 3 + 486662 * u1 ^ 2 + u1)
    (h2 : v2 ^ 2 = u2 ^ 3 + 486662 * u2 ^ 2 + u2) (h3 : v3 ^ 2 = u3 ^ 3 + 486662 * u3 ^ 2 + u3) (hu1 : u1 ≠ 0) (hu2 : u2 ≠ 0)
    (hy : u3 * (v1 * v2 * (u1 + u2) + u1 * u2 * (486662 * (u1 + u2) + 2 * (u1 * u2 + 1))) =
      v1 * v2 * (u1 * u2 + 1) - u1 * u2 * (486662 * (u1 * u2 + 1) + 2 * (u1 + u2)))
    (hx : u3 * (v1 * v2 * (u1 + 1) * (u2 + 1) + 486660 * u1 * u2 * (u1 - 1) * (u2 - 1)) =
      v3 * (u1 * v2 * (u2 - 1) * (u1 + 1) + u2 * v1 * (u1 - 1) * (u2 + 1)))
    (h0 : u3 = 0 → u1 * v2 * (u2 - 1) * (u1 + 1) + u2 * v1 * (u1 - 1) * (u2 + 1) = 0) :
    let c : EdF := ((edC : ℕ) : EdF)
    let x1 := c * u1 / v1
    let x2 := c * u2 / v2
    let y1 := (u1 - 1) / (u1 + 1)
    let y2 := (u2 - 1) / (u2 + 1)
    c * u3 / v3 * (1 + edD * x1 * x2 * y1 * y2) = x1 * y2 + x2 * y1 ∧
    (u3 - 1) / (u3 + 1) * (1 - edD * x1 * x2 * y1 * y2) = y1 * y2 + x1 * x2 := by
  have hc := edC_sq
  have hcn := edC_ne
  have hd := edD_eq
  generalize ((edC : ℕ) : EdF) = c at hc hcn
  have e : edD * c ^ 2 = 486660 := by rw [hc]; linear_combination -hd
  intro c' x1 x2 y1 y2
  have hv1 := ed_v_ne h1 hu1
  have hv2 := ed_v_ne h2 hu2
  have n1 := ed_u_ne h1
  have n2 := ed_u_ne h2
  have n3 := ed_u_ne h3
  have hD : edD * x1 * x2 * y1 * y2 * (v1 * v2 * (u1 + 1) * (u2 + 1)) = 486660 * u1 * u2 * (u1 - 1) * (u2 - 1) := by
    simp only [x1, x2, y1, y2, c']
    field_simp
    linear_combination ((u1 - 1) * (u2 - 1)) * e
  have hN : (x1 * y2 + x2 * y1) * (v1 * v2 * (u1 + 1) * (u2 + 1)) =
      c * (u1 * v2 * (u2 - 1) * (u1 + 1) + u2 * v1 * (u1 - 1) * (u2 + 1)) := by
    simp only [x1, x2, y1, y2, c']
    field_simp
    try ring
  have hY : (y1 * y2 + x1 * x2) * (v1 * v2 * (u1 + 1) * (u2 + 1)) =
      v1 * v2 * (u1 - 1) * (u2 - 1) - 486664 * u1 * u2 * (u1 + 1) * (u2 + 1) := by
    simp only [x1, x2, y1, y2, c']
    field_simp
    linear_combination u1 * u2 * (u1 + 1) * (u2 + 1) * hc
  have hK : v1 * v2 * (u1 + 1) * (u2 + 1) ≠ 0 := mul_ne_zero (mul_ne_zero (mul_ne_zero hv1 hv2) n1) n2
  generalize edD * x1 * x2 * y1 * y2 = D at hD ⊢
  constructor
  · by_cases hu3 : u3 = 0
    · have := h0 hu3
      rw [this, mul_zero] at hN
      rw [(mul_eq_zero.1 hN).resolve_right hK, hu3]
      simp
    · have hv3 := ed_v_ne h3 hu3
      apply mul_right_cancel₀ hK
      rw [hN]
      simp only [c']
      field_simp
      linear_combination hx + u3 * hD
  · apply mul_right_cancel₀ hK
    rw [hY]
    rw [div_mul_eq_mul_div, div_mul_eq_mul_div, div_eq_iff n3]
    linear_combination 2 * hy - (u3 - 1) * hD

/-- The equations between the coordinates of two points and their sum. -/
def EdRel (u1 v1 u2 v2 u3 v3 : EdF) : Prop :=
  u3 * (v1 * v2 * (u1 + u2) + u1 * u2 * (486662 * (u1 + u2) + 2 * (u1 * u2 + 1))) =
    v1 * v2 * (u1 * u2 + 1) - u1 * u2 * (486662 * (u1 * u2 + 1) + 2 * (u1 + u2)) ∧
  u3 * (v1 * v2 * (u1 + 1) * (u2 + 1) + 486660 * u1 * u2 * (u1 - 1) * (u2 - 1)) =
    v3 * (u1 * v2 * (u2 - 1) * (u1 + 1) + u2 * v1 * (u1 - 1) * (u2 + 1)) ∧
  (u3 = 0 → u1 * v2 * (u2 - 1) * (u1 + 1) + u2 * v1 * (u1 - 1) * (u2 + 1) = 0)

/-- The chord. -/
theorem ed_chord {u1 v1 u2 v2 l u3 v3 : EdF} (h1 : v1 ^ 2 = u1 ^ 3 + 486662 * u1 ^ 2 + u1)
    (h2 : v2 ^ 2 = u2 ^ 3 + 486662 * u2 ^ 2 + u2) (hne : u1 - u2 ≠ 0) (hl : l * (u1 - u2) = v1 - v2)
    (hu3 : u3 = l ^ 2 - 486662 - u1 - u2) (hv3 : v3 = l * (u1 - u3) - v1) (hn1 : u1 ≠ 0) (hn2 : u2 ≠ 0) :
    EdRel u1 v1 u2 v2 u3 v3 := by
  have hU : u3 * (u1 - u2) ^ 2 = (v1 - v2) ^ 2 - (486662 + u1 + u2) * (u1 - u2) ^ 2 := by
    rw [hu3]
    linear_combination (l * (u1 - u2) + (v1 - v2)) * hl
  have hW : v3 * (u1 - u2) ^ 3 = (v1 - v2) * (u1 * (u1 - u2) ^ 2 - u3 * (u1 - u2) ^ 2) - v1 * (u1 - u2) ^ 3 := by
    rw [hv3]
    linear_combination (u1 - u3) * (u1 - u2) ^ 2 * hl
  rw [hU] at hW
  refine ⟨?_, ?_, fun h0 => ?_⟩
  · apply mul_right_cancel₀ (pow_ne_zero 2 hne)
    linear_combination (v1 * v2 * (u1 + u2) + u1 * u2 * (486662 * (u1 + u2) + 2 * (u1 * u2 + 1))) * hU +
      (2*u1^2*u2^2 + u1^2*u2*486662 + u1*u2^2*486662 + 2*u1*u2 + u1*v1*v2 + (-2*u1*v2^2) + u2*v1*v2 + (-2*u2*v2^2)) * h1 +
      ((-2*u1^4) + (-2*u1^3*u2) + (-2*u1^3*486662) + 2*u1^2*u2^2 + (-1*u1^2*u2*486662) + (-2*u1^2) + u1*u2^2*486662
       + u1*v1*v2 + u2*v1*v2) * h2
  · apply mul_right_cancel₀ (pow_ne_zero 3 hne)
    linear_combination (u1 - u2) * (v1 * v2 * (u1 + 1) * (u2 + 1) + 486660 * u1 * u2 * (u1 - 1) * (u2 - 1)) * hU -
      (u1 * v2 * (u2 - 1) * (u1 + 1) + u2 * v1 * (u1 - 1) * (u2 + 1)) * hW +
      (u1^3*u2^2*486662 + (-2*u1^3*u2^2) + (-1*u1^3*u2*486662) + 2*u1^3*u2 + 3*u1^2*u2^4 + u1^2*u2^3*486662
       + 5*u1^2*u2^3 + 2*u1^2*u2^2*486662 + u1^2*u2^2 + 2*u1^2*u2*v1*v2 + (-5*u1^2*u2*v2^2) + u1^2*u2*486662
       + (-1*u1^2*u2) + u1^2*v2^2 + (-2*u1*u2^5) + (-1*u1*u2^4*486662) + (-5*u1*u2^4) + (-2*u1*u2^3*486662)
       + (-5*u1*u2^3) + u1*u2^2*v1^2 + (-4*u1*u2^2*v1*v2) + 5*u1*u2^2*v2^2 + (-3*u1*u2^2*486662) + u1*u2^2 + u1*u2*v1^2
       + (-2*u1*u2*v1*v2) + (-1*u1*u2) + u1*v2^2 + 2*u2^5 + u2^4*486662 + 2*u2^4 + u2^3*486662 + (-1*u2^2*v1^2)
       + 2*u2^2*v1*v2 + (-1*u2^2*v2^2) + (-1*u2*v1^2) + 2*u2*v1*v2 + (-1*u2*v2^2)) * h1 +
      ((-3*u1^5*u2) + (-1*u1^5) + 2*u1^4*u2^2 + (-4*u1^4*u2*486662) + 5*u1^4*u2 + (-1*u1^4) + 4*u1^3*u2^2*486662
       + (-6*u1^3*u2^2) + 2*u1^3*u2*486662 + (-1*u1^3*u2) + u1^3 + (-1*u1^2*u2^3*486662) + 2*u1^2*u2^3
       + (-3*u1^2*u2^2*486662) + 4*u1^2*u2^2 + 4*u1^2*u2*v1*v2 + (-1*u1^2*u2*v2^2) + 2*u1^2*u2*486662 + (-1*u1^2*u2)
       + (-2*u1^2*v1*v2) + u1^2*v2^2 + u1^2 + u1*u2^3*486662 + (-2*u1*u2^3) + (-2*u1*u2^2*v1*v2) + (-1*u1*u2^2*486662)
       + 2*u1*u2*v1*v2 + (-1*u1*u2*v2^2) + (-2*u1*v1*v2) + u1*v2^2) * h2
  · rw [h0, zero_mul] at hU
    have hz : (u2 * v1 - u1 * v2) ^ 2 = 0 := by
      linear_combination (-(u1 * u2)) * hU -
        (u1*u2 + (-1*u2^2)) * h1 -
        ((-1*u1^2) + u1*u2) * h2
    have hz := pow_eq_zero_iff two_ne_zero |>.1 hz
    have h4 : (u1 * u2 * (u1 - u2)) * (u1 * u2 - 1) = 0 := by
      linear_combination (u2 * v1 + u1 * v2) * hz - u2 ^ 2 * h1 + u1 ^ 2 * h2
    have h5 := (mul_eq_zero.1 h4).resolve_left (mul_ne_zero (mul_ne_zero hn1 hn2) hne)
    linear_combination (2 * v1 * u2) * h5 + ((u2 - 1) * (u1 + 1)) * (-hz)

/-- The tangent. -/
theorem ed_tangent {u1 v1 l u3 v3 : EdF} (h1 : v1 ^ 2 = u1 ^ 3 + 486662 * u1 ^ 2 + u1)
    (hn1 : v1 ≠ 0) (hl : l * (2 * v1) = 3 * u1 ^ 2 + 2 * 486662 * u1 + 1)
    (hu3 : u3 = l ^ 2 - 486662 - u1 - u1) (hv3 : v3 = l * (u1 - u3) - v1) : EdRel u1 v1 u1 v1 u3 v3 := by
  have h2v : 2 * v1 ≠ 0 := mul_ne_zero edF_two hn1
  have hU : u3 * (2 * v1) ^ 2 = (3 * u1 ^ 2 + 2 * 486662 * u1 + 1) ^ 2 - (486662 + 2 * u1) * (2 * v1) ^ 2 := by
    rw [hu3]
    linear_combination (l * (2 * v1) + (3 * u1 ^ 2 + 2 * 486662 * u1 + 1)) * hl
  have hW : v3 * (2 * v1) ^ 3 = (3 * u1 ^ 2 + 2 * 486662 * u1 + 1) * (u1 * (2 * v1) ^ 2 - u3 * (2 * v1) ^ 2) - 8 * v1 ^ 4 := by
    rw [hv3]
    linear_combination (u1 - u3) * (2 * v1) ^ 2 * hl
  rw [hU] at hW
  refine ⟨?_, ?_, fun h0 => ?_⟩
  · apply mul_right_cancel₀ (pow_ne_zero 2 h2v)
    linear_combination (v1 * v1 * (u1 + u1) + u1 * u1 * (486662 * (u1 + u1) + 2 * (u1 * u1 + 1))) * hU +
      ((-18*u1^5) + (-24*u1^4*486662) + (-8*u1^3*486662^2) + (-12*u1^3) + (-20*u1^2*v1^2) + (-8*u1^2*486662)
       + (-8*u1*v1^2*486662) + (-2*u1) + (-4*v1^2)) * h1
  · apply mul_right_cancel₀ (pow_ne_zero 3 h2v)
    linear_combination (2 * v1) * (v1 * v1 * (u1 + 1) * (u1 + 1) + 486660 * u1 * u1 * (u1 - 1) * (u1 - 1)) * hU -
      (u1 * v1 * (u1 - 1) * (u1 + 1) + u1 * v1 * (u1 - 1) * (u1 + 1)) * hW +
      ((-54*u1^6*v1) + (-72*u1^5*v1*486662) + 36*u1^5*v1 + (-24*u1^4*v1*486662^2) + 48*u1^4*v1*486662 + (-18*u1^4*v1)
       + 16*u1^3*v1*486662^2 + 24*u1^3*v1 + (-8*u1^2*v1^3*486662) + (-32*u1^2*v1^3) + 8*u1^2*v1*486662^2
       + 16*u1^2*v1*486662 + 6*u1^2*v1 + (-16*u1*v1^3*486662) + (-32*u1*v1^3) + 8*u1*v1*486662 + 4*u1*v1
       + (-8*v1^3*486662) + 2*v1) * h1
  · rw [h0, zero_mul] at hU
    have hz : (u1 ^ 2 - 1) ^ 2 = 0 := by
      linear_combination -hU - ((-8*u1) + (-4*486662)) * h1
    have hz := pow_eq_zero_iff two_ne_zero |>.1 hz
    linear_combination (2 * u1 * v1) * hz

/-- The first coordinate of a sum. -/
def edSumX (p q : EdF × EdF) : EdF := (p.1 * q.2 + q.1 * p.2) / (1 + edD * p.1 * q.1 * p.2 * q.2)

/-- The second coordinate of a sum. -/
def edSumY (p q : EdF × EdF) : EdF := (p.2 * q.2 + p.1 * q.1) / (1 - edD * p.1 * q.1 * p.2 * q.2)

theorem ed_denominators {p q : EdF × EdF} (h1 : EdEq p.1 p.2) (h2 : EdEq q.1 q.2) :
    1 + edD * p.1 * q.1 * p.2 * q.2 ≠ 0 ∧ 1 - edD * p.1 * q.1 * p.2 * q.2 ≠ 0 := by
  have h := ed_complete h1 h2
  constructor <;> intro e <;> apply h
  · rw [eq_neg_of_add_eq_zero_right e]; ring
  · rw [← sub_eq_zero.1 e]; ring

theorem edSum_comm (p q : EdF × EdF) : edSumX p q = edSumX q p ∧ edSumY p q = edSumY q p := by
  constructor <;> simp only [edSumX, edSumY] <;> congr 1 <;> ring

theorem edWt_three : ((edWt : ℕ) : EdF) * 3 = 486662 := by rw [edWt_eq, div_mul_cancel₀ _ edF_three]

theorem toEd_some {X Y : EdF} (h : edW.Nonsingular X Y) {u : EdF} (hu : X - ((edWt : ℕ) : EdF) = u) :
    toEd (.some X Y h) = ((edC : ℕ) * u / Y, (u - 1) / (u + 1)) := by rw [toEd, hu]

/-- Adding the point of order two. -/
theorem toEd_add_two {X Y : EdF} (h : edW.Nonsingular X Y) {X' : EdF} (h' : edW.Nonsingular X' 0) (hX' : X' - ((edWt : ℕ) : EdF) = 0)
    (hX : X - ((edWt : ℕ) : EdF) ≠ 0) :
    toEd (.some X' 0 h' + .some X Y h) = (-(toEd (.some X Y h)).1, -(toEd (.some X Y h)).2) := by
  have hm := ed_montgomery.1 h
  have hne : X' - X ≠ 0 := fun e => hX (by linear_combination hX' - e)
  have ht3 := edWt_three
  have hY := ed_v_ne hm hX
  have hn1 := ed_u_ne hm
  generalize hu : X - ((edWt : ℕ) : EdF) = u at hX hm hn1
  obtain ⟨hn, he⟩ := sw_add h' h hne (l := Y / u) (by
    field_simp
    linear_combination Y * hX' - Y * hu)
  have hU : (Y / u) ^ 2 - X' - X - ((edWt : ℕ) : EdF) = 1 / u := by
    rw [div_pow, hm, sub_eq_zero.1 hX', show X = u + ((edWt : ℕ) : EdF) by rw [← hu]; ring]
    field_simp
    linear_combination -u * ht3
  have hV : Y / u * (X' - ((Y / u) ^ 2 - X' - X)) - 0 = -(Y / u ^ 2) := by
    rw [show X' - ((Y / u) ^ 2 - X' - X) = -(1 / u) by linear_combination hX' - hU]
    field_simp
    ring
  have h1u : 1 + u ≠ 0 := by rwa [add_comm]
  rw [he, toEd_some hn hU, toEd_some h hu, hV, Prod.mk.injEq]
  constructor
  · field_simp
  · field_simp
    ring

/-- Sums of points in Edwards coordinates. -/
theorem toEd_add (P Q : edW.Point) : toEd (P + Q) = (edSumX (toEd P) (toEd Q), edSumY (toEd P) (toEd Q)) := by
  have hden := ed_denominators (toEd_eq P) (toEd_eq Q)
  match P, Q with
  | .zero, Q =>
    show toEd (0 + Q) = _
    rw [zero_add]
    simp [edSumX, edSumY, toEd]
  | .some X Y h, .zero =>
    show toEd (.some X Y h + 0) = _
    rw [add_zero]
    simp [edSumX, edSumY, toEd]
  | .some X Y h, .some X' Y' h' =>
    have hm := ed_montgomery.1 h
    have hm' := ed_montgomery.1 h'
    have two : ∀ {X Y X'} (h : edW.Nonsingular X Y) (h' : edW.Nonsingular X' 0), X' - ((edWt : ℕ) : EdF) = 0 →
        X - ((edWt : ℕ) : EdF) ≠ 0 → toEd (.some X' 0 h' + .some X Y h) =
          (edSumX (toEd (.some X' 0 h')) (toEd (.some X Y h)), edSumY (toEd (.some X' 0 h')) (toEd (.some X Y h))) := by
      intro X Y X' h h' e hX
      rw [toEd_add_two h h' e hX, toEd_some h' e]
      simp [edSumX, edSumY]
    by_cases hu : X - ((edWt : ℕ) : EdF) = 0
    · have hY : Y = 0 := by rw [hu] at hm; simpa using hm
      subst hY
      by_cases hu' : X' - ((edWt : ℕ) : EdF) = 0
      · have hY' : Y' = 0 := by rw [hu'] at hm'; simpa using hm'
        subst hY'
        have e : Affine.Point.some X 0 h + Affine.Point.some X' 0 h' = 0 :=
          Affine.Point.add_of_Y_eq (by linear_combination hu - hu') (by simp [Affine.negY, swCurve])
        rw [e, toEd_some h hu, toEd_some h' hu']
        simp [edSumX, edSumY]
        rfl
      · exact two h' h hu hu'
    by_cases hu' : X' - ((edWt : ℕ) : EdF) = 0
    · have hY' : Y' = 0 := by rw [hu'] at hm'; simpa using hm'
      subst hY'
      rw [add_comm, two h h' hu' hu, (edSum_comm _ _).1, (edSum_comm _ _).2]
    have ht3 := edWt_three
    have core : ∀ {X3 Y3 : EdF} (h3 : edW.Nonsingular X3 Y3) (l : EdF), X3 = l ^ 2 - X - X' → Y3 = l * (X - X3) - Y →
        (Affine.Point.some X Y h + Affine.Point.some X' Y' h' = Affine.Point.some X3 Y3 h3) →
        (∀ u3 : EdF, u3 = l ^ 2 - 486662 - (X - ((edWt : ℕ) : EdF)) - (X' - ((edWt : ℕ) : EdF)) →
          Y3 = l * (X - ((edWt : ℕ) : EdF) - u3) - Y →
          EdRel (X - ((edWt : ℕ) : EdF)) Y (X' - ((edWt : ℕ) : EdF)) Y' u3 Y3) →
        toEd (.some X Y h + .some X' Y' h') = (edSumX (toEd (.some X Y h)) (toEd (.some X' Y' h')),
          edSumY (toEd (.some X Y h)) (toEd (.some X' Y' h'))) := by
      intro X3 Y3 h3 l e1 e2 he hk
      obtain ⟨k1, k2, k3⟩ := hk (X3 - ((edWt : ℕ) : EdF)) (by rw [e1]; linear_combination -ht3) (by rw [e2]; ring)
      obtain ⟨r1, r2⟩ := ed_add_core hm hm' (ed_montgomery.1 h3) hu hu' k1 k2 k3
      rw [he, Prod.mk.injEq]
      exact ⟨(eq_div_iff hden.1).2 r1, (eq_div_iff hden.2).2 r2⟩
    by_cases hX : X = X'
    · subst hX
      by_cases hY : Y = Y'
      · subst hY
        have hv := ed_v_ne hm hu
        have h2v := mul_ne_zero edF_two hv
        obtain ⟨hn, he⟩ := sw_dbl h h2v (l := (3 * X ^ 2 + ((edWa : ℕ) : EdF)) / (2 * Y)) (div_mul_cancel₀ _ h2v)
        refine core hn _ rfl rfl he fun u3 g1 g2 => ed_tangent hm hv ?_ g1 g2
        rw [div_mul_cancel₀ _ h2v, edWa_eq, show (486662 : EdF) ^ 2 / 3 = 3 * ((edWt : ℕ) : EdF) ^ 2 by
          rw [edWt_eq, div_pow, ← mul_div_assoc, div_eq_div_iff edF_three (pow_ne_zero _ edF_three)]; ring]
        linear_combination (2 * (X - ((edWt : ℕ) : EdF))) * ht3
      · have e : Y' = -Y := by
          have : (Y' - Y) * (Y' + Y) = 0 := by linear_combination hm' - hm
          rcases mul_eq_zero.1 this with e | e
          · exact absurd (sub_eq_zero.1 e).symm hY
          · exact eq_neg_of_add_eq_zero_left e
        subst e
        have e : Affine.Point.some X Y h + Affine.Point.some X (-Y) h' = 0 :=
          Affine.Point.add_of_Y_eq rfl (by simp [Affine.negY, swCurve])
        have hq : toEd (.some X (-Y) h') = (-(toEd (.some X Y h)).1, (toEd (.some X Y h)).2) := by
          simp only [toEd, div_neg]
        have hE := toEd_eq (.some X Y h)
        rw [hq] at hden ⊢
        rw [e]
        show ((0 : EdF), (1 : EdF)) = _
        rw [Prod.mk.injEq]
        refine ⟨((div_eq_zero_iff).2 (.inl (by ring))).symm, ((div_eq_one_iff_eq hden.2).2 ?_).symm⟩
        rw [EdEq] at hE
        linear_combination hE
    · have hne : X - X' ≠ 0 := sub_ne_zero.2 hX
      obtain ⟨hn, he⟩ := sw_add h h' hne (l := (Y - Y') / (X - X')) (div_mul_cancel₀ _ hne)
      refine core hn _ rfl rfl he fun u3 g1 g2 => ed_chord hm hm' ?_ ?_ g1 g2 hu hu'
      · rwa [sub_sub_sub_cancel_right]
      · rw [sub_sub_sub_cancel_right]; exact div_mul_cancel₀ _ hne

end Verif
