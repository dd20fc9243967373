import Verif.Lemmas.AffineLaw
import Mathlib.Analysis.SpecialFunctions.ImproperIntegrals

/-!
# Decay of characteristic functions of affine exponents
-/

open MeasureTheory Real Set Filter Topology
open Complex (I)

namespace Sdepy

theorem integrable_exp_neg_mul_abs {C : ℝ} (hC : 0 < C) : Integrable fun u : ℝ => exp (-(C * |u|)) := by
  have h1 : Integrable fun u : ℝ => (1 + (C / 2 * u) ^ 2)⁻¹ :=
    integrable_inv_one_add_sq.comp_mul_left' (by positivity)
  refine h1.mono' (Measurable.aestronglyMeasurable (by fun_prop)) (Eventually.of_forall fun u => ?_)
  rw [Real.norm_of_nonneg (exp_pos _).le, exp_neg]
  gcongr
  have h2 := Real.quadratic_le_exp_of_nonneg (x := C * |u|) (by positivity)
  have h3 : (C * |u|) ^ 2 = C ^ 2 * u ^ 2 := by rw [mul_pow, sq_abs]
  have h4 : (C / 2 * u) ^ 2 = C ^ 2 * u ^ 2 / 4 := by ring
  have h5 : 0 ≤ C * |u| := by positivity
  have h6 : 0 ≤ C ^ 2 * u ^ 2 := by positivity
  rw [h4]
  linarith

theorem ricR_re_lt (sigma k xi rho u : ℝ) (b : ℂ) :
    (ricR sigma k xi rho u b).re ≤
      -((1 - rho ^ 2) * sigma ^ 2 / 2) * u ^ 2 + (-k * b.re + xi ^ 2 / 2 * b.re ^ 2) := by
  have e : (ricR sigma k xi rho u b).re = -(u * sigma) ^ 2 / 2 - rho * (u * sigma) * (xi * b.im) -
      (xi * b.im) ^ 2 / 2 + (-k * b.re + xi ^ 2 / 2 * b.re ^ 2) := by
    unfold ricR
    have : -((u : ℂ) ^ 2 + I * u) * sigma ^ 2 / 2 + (I * u * rho * sigma * xi - k) * b + xi ^ 2 * b ^ 2 / 2 =
      ((-(u * sigma) ^ 2 / 2 : ℝ) : ℂ) + ((-(u * sigma ^ 2) / 2 : ℝ) : ℂ) * I +
        (((u * rho * sigma * xi : ℝ) : ℂ) * I * b - (k : ℂ) * b) + ((xi ^ 2 / 2 : ℝ) : ℂ) * (b * b) := by
      push_cast; ring
    rw [this]
    simp only [Complex.add_re, Complex.sub_re, Complex.mul_re, Complex.mul_im, Complex.ofReal_re,
      Complex.ofReal_im, Complex.I_re, Complex.I_im]
    ring
  rw [e]
  nlinarith [sq_nonneg (xi * b.im + rho * (u * sigma))]

/-- With noises not wholly correlated, the real part of the coefficient of `y` is below a straight line, with
slope proportional to `u`. -/
theorem ric_decay {sigma k xi rho T : ℝ} (hs : sigma ≠ 0) (hk : 0 < k) (hr : |rho| < 1) (hT : 0 < T) :
    ∃ c : ℝ, 0 < c ∧ ∀ (mu theta u : ℝ) (A B : ℝ → ℂ), 1 ≤ |u| → Riccati mu sigma theta k xi rho u 0 A B →
      ∀ t ∈ Icc 0 T, (B t).re ≤ -(c * |u|) * t := by
  set g := (1 - rho ^ 2) * sigma ^ 2 / 2 with hg
  have hr2 : rho ^ 2 < 1 := (sq_lt_one_iff_abs_lt_one rho).2 hr
  have hgp : 0 < g := by
    have : 0 < sigma ^ 2 := by positivity
    have : 0 < 1 - rho ^ 2 := by linarith
    positivity
  set m := 1 + k * T + xi ^ 2 / 2 * T ^ 2 with hm
  have hmp : 0 < m := by positivity
  refine ⟨min 1 (g / (2 * m)), by positivity, ?_⟩
  set c := min 1 (g / (2 * m)) with hc
  have hc0 : 0 < c := by positivity
  have hc1 : c ≤ 1 := min_le_left _ _
  have hcm : c * m < g := by
    calc c * m ≤ g / (2 * m) * m := by gcongr; exact min_le_right _ _
      _ = g / 2 := by field_simp
      _ < g := by linarith
  intro mu theta u A B hu h
  have hd : ∀ t ∈ Icc 0 T, HasDerivAt (fun t => (B t).re) (ricR sigma k xi rho u (B t)).re t := fun t ht => by
    have := (Complex.reCLM.hasFDerivAt (x := B t)).comp_hasDerivAt t (h.B' t ht.1)
    exact this
  refine fun t ht => image_le_of_deriv_right_lt_deriv_boundary (f := fun t => (B t).re)
    (f' := fun t => (ricR sigma k xi rho u (B t)).re) (a := 0) (b := T)
    (B := fun t => -(c * |u|) * t) (B' := fun _ => -(c * |u|))
    (fun x hx => (hd x hx).continuousAt.continuousWithinAt)
    (fun x hx => (hd x ⟨hx.1, hx.2.le⟩).hasDerivWithinAt) (by simp [h.B0]) (fun x => ?_) ?_ ht
  · simpa using (hasDerivAt_id x).const_mul (-(c * |u|))
  · intro x hx hxe
    refine (ricR_re_lt sigma k xi rho u (B x)).trans_lt ?_
    rw [hxe]
    have hx0 := hx.1
    have hxT := hx.2.le
    rw [← hg, ← sq_abs u]
    set w := |u| with hw
    have e1 : k * (c * w * x) ≤ c * (k * T) * w ^ 2 := by
      calc k * (c * w * x) ≤ k * (c * w * T) := by gcongr
        _ = c * (k * T) * w * 1 := by ring
        _ ≤ c * (k * T) * w * w := by gcongr
        _ = _ := by ring
    have e2 : xi ^ 2 / 2 * (-(c * w) * x) ^ 2 ≤ c * (xi ^ 2 / 2 * T ^ 2) * w ^ 2 := by
      calc xi ^ 2 / 2 * (-(c * w) * x) ^ 2 = c * c * (xi ^ 2 / 2 * x ^ 2) * w ^ 2 := by ring
        _ ≤ c * 1 * (xi ^ 2 / 2 * T ^ 2) * w ^ 2 := by gcongr
        _ = _ := by ring
    have e3 : c * w ≤ c * w ^ 2 := by
      calc c * w = c * w * 1 := by ring
        _ ≤ c * w * w := by gcongr
        _ = _ := by ring
    have e4 : c * m * w ^ 2 < g * w ^ 2 := by
      have : 0 < w ^ 2 := by positivity
      exact mul_lt_mul_of_pos_right hcm this
    have e5 : c * m * w ^ 2 = c * w ^ 2 + c * (k * T) * w ^ 2 + c * (xi ^ 2 / 2 * T ^ 2) * w ^ 2 := by
      rw [hm]; ring
    linarith

/-- Hence the exponential of the exponent decays exponentially. -/
theorem affine_decay {sigma theta k xi rho T : ℝ} (hs : sigma ≠ 0) (hth : 0 < theta) (hk : 0 < k)
    (hr : |rho| < 1) (hT : 0 < T) :
    ∃ C : ℝ, 0 < C ∧ ∀ (mu u l0 y0 : ℝ) (A B : ℝ → ℂ), 0 ≤ y0 → 1 ≤ |u| →
      Riccati mu sigma theta k xi rho u 0 A B →
      ‖Complex.exp (I * u * l0 + A T + B T * y0)‖ ≤ exp (-(C * |u|)) := by
  obtain ⟨c, hc, h⟩ := ric_decay (xi := xi) hs hk hr hT
  refine ⟨k * theta * c * T ^ 2 / 2, by positivity, fun mu u l0 y0 A B hy hu hAB => ?_⟩
  have hB := h mu theta u A B hu hAB
  have hd : ∀ t ∈ Icc 0 T, HasDerivAt (fun t => (A t).re) (k * theta * (B t).re) t := fun t ht => by
    have := (Complex.reCLM.hasFDerivAt (x := A t)).comp_hasDerivAt t (hAB.A' t ht.1)
    refine this.congr_deriv ?_
    have e : (I * u * mu + k * theta * B t : ℂ) = I * ((u * mu : ℝ) : ℂ) + ((k * theta : ℝ) : ℂ) * B t := by
      push_cast; ring
    simp [e]
  have hA : (A T).re ≤ -(k * theta * c * |u|) / 2 * T ^ 2 := by
    refine image_le_of_deriv_right_le_deriv_boundary (f := fun t => (A t).re)
      (f' := fun t => k * theta * (B t).re) (a := 0) (b := T)
      (B := fun t => -(k * theta * c * |u|) / 2 * t ^ 2) (B' := fun t => -(k * theta * c * |u|) * t)
      (fun x hx => (hd x hx).continuousAt.continuousWithinAt)
      (fun x hx => (hd x ⟨hx.1, hx.2.le⟩).hasDerivWithinAt) (by simp [hAB.A0]) (by fun_prop) (fun x _ => ?_)
      (fun x hx => ?_) ⟨hT.le, le_rfl⟩
    · refine HasDerivAt.hasDerivWithinAt ?_
      refine ((hasDerivAt_pow 2 x).const_mul (-(k * theta * c * |u|) / 2)).congr_deriv ?_
      simp; ring
    · have := hB x ⟨hx.1, hx.2.le⟩
      calc k * theta * (B x).re ≤ k * theta * (-(c * |u|) * x) := by gcongr
        _ = _ := by ring
  have hBT : (B T).re ≤ 0 := (hB T ⟨hT.le, le_rfl⟩).trans (by
    have : 0 ≤ c * |u| * T := by positivity
    linarith)
  rw [Complex.norm_exp, exp_le_exp]
  have e : (I * u * l0 + A T + B T * y0 : ℂ).re = (A T).re + (B T).re * y0 := by
    rw [show (I * u * l0 : ℂ) = I * ((u * l0 : ℝ) : ℂ) by push_cast; ring]
    simp
  rw [e]
  have := mul_nonpos_of_nonpos_of_nonneg hBT hy
  linarith

end Sdepy
