import Verif.Lemmas.HestonMoments
import Verif.Lemmas.CorrNormal
import Mathlib.Analysis.Calculus.MeanValue
import Mathlib.Analysis.ODE.Gronwall

/-!
# Exponentials of affine functions of the values simulated for a Heston process
-/

set_option linter.unusedSectionVars false

open MeasureTheory ProbabilityTheory Real Set
open Complex (I)

namespace Sdepy

open Spec

/-! ### complex analysis -/

/-- First order expansion of a function whose derivative is Lipschitz continuous. -/
theorem taylor_one {f f' : ℝ → ℂ} {a h Λ : ℝ} (hh : 0 ≤ h)
    (hf : ∀ s ∈ Icc a (a + h), HasDerivAt f (f' s) s)
    (hl : ∀ s ∈ Icc a (a + h), ‖f' s - f' a‖ ≤ Λ * (s - a)) :
    ‖f (a + h) - f a - h * f' a‖ ≤ Λ * h ^ 2 := by
  have hΛ : 0 ≤ Λ * h := by
    have := (norm_nonneg _).trans (hl (a + h) ⟨by linarith, le_rfl⟩)
    simpa using this
  have hd : ∀ s ∈ Icc a (a + h), HasDerivWithinAt (fun s : ℝ => f s - s * f' a) (f' s - f' a)
      (Icc a (a + h)) s := by
    intro s hs
    have h1 : HasDerivAt (fun s : ℝ => (s : ℂ) * f' a) (1 * f' a) s :=
      (Complex.ofRealCLM.hasDerivAt (x := s)).mul_const _
    rw [one_mul] at h1
    exact ((hf s hs).sub h1).hasDerivWithinAt
  have key := norm_image_sub_le_of_norm_deriv_le_segment' hd (C := Λ * h) (by
    intro s hs
    have hs' : s ∈ Icc a (a + h) := ⟨hs.1, hs.2.le⟩
    have h0 : 0 ≤ s - a := by linarith [hs.1]
    have h2 : s - a ≤ h := by linarith [hs.2]
    rcases le_or_gt 0 Λ with hn | hn
    · exact (hl s hs').trans (by gcongr)
    · exact (hl s hs').trans ((mul_nonpos_of_nonpos_of_nonneg hn.le h0).trans hΛ)) (a + h)
    ⟨by linarith, le_rfl⟩
  refine le_trans (le_of_eq ?_) (key.trans (le_of_eq (by ring)))
  congr 1
  push_cast
  ring

theorem exp_sub_le {x y : ℂ} {M : ℝ} (hx : x.re ≤ M) (hy : y.re ≤ M) :
    ‖Complex.exp x - Complex.exp y‖ ≤ Real.exp M * ‖x - y‖ := by
  have hc : Convex ℝ {z : ℂ | z.re ≤ M} := convex_halfSpace_re_le M
  refine hc.norm_image_sub_le_of_norm_hasDerivWithin_le (f := Complex.exp) (f' := Complex.exp)
    (fun z _ => (Complex.hasDerivAt_exp z).hasDerivWithinAt) (fun z hz => ?_) hy hx
  rw [Complex.norm_exp]
  exact Real.exp_le_exp.2 hz

/-! ### the Riccati equation -/

/-- The derivative of the coefficient of `y`. -/
noncomputable def ricR (sigma k xi rho u : ℝ) (b : ℂ) : ℂ :=
  -(u ^ 2 + I * u) * sigma ^ 2 / 2 + (I * u * rho * sigma * xi - k) * b + xi ^ 2 * b ^ 2 / 2

theorem ricR_re (sigma k xi rho u : ℝ) (hr : |rho| ≤ 1) (b : ℂ) :
    (ricR sigma k xi rho u b).re ≤ -k * b.re + xi ^ 2 / 2 * b.re ^ 2 := by
  have e : (ricR sigma k xi rho u b).re = -(u * sigma) ^ 2 / 2 - rho * (u * sigma) * (xi * b.im) -
      (xi * b.im) ^ 2 / 2 + (-k * b.re + xi ^ 2 / 2 * b.re ^ 2) := by
    unfold ricR
    have : -((u : ℂ) ^ 2 + I * u) * sigma ^ 2 / 2 + (I * u * rho * sigma * xi - k) * b + xi ^ 2 * b ^ 2 / 2 =
      ((-(u * sigma) ^ 2 / 2 : ℝ) : ℂ) + ((-(u * sigma ^ 2) / 2 : ℝ) : ℂ) * I +
        (((u * rho * sigma * xi : ℝ) : ℂ) * I * b - (k : ℂ) * b) + ((xi ^ 2 / 2 : ℝ) : ℂ) * (b * b) := by
      push_cast; ring
    rw [this]
    simp only [Complex.add_re, Complex.sub_re, Complex.mul_re, Complex.mul_im, Complex.ofReal_re,
      Complex.ofReal_im, Complex.I_re, Complex.I_im]
    ring
  rw [e]
  have h1 : rho ^ 2 ≤ 1 := (sq_le_one_iff_abs_le_one rho).2 hr
  nlinarith [sq_nonneg (u * sigma + rho * (xi * b.im)), mul_nonneg (sub_nonneg.2 h1) (sq_nonneg (xi * b.im))]

theorem ricR_lipschitz (sigma k xi rho u : ℝ) {b : ℝ} {x y : ℂ} (hx : ‖x‖ ≤ b) (hy : ‖y‖ ≤ b) :
    ‖ricR sigma k xi rho u x - ricR sigma k xi rho u y‖ ≤
      (‖I * u * rho * sigma * xi - k‖ + xi ^ 2 * b) * ‖x - y‖ := by
  have e : ricR sigma k xi rho u x - ricR sigma k xi rho u y =
      ((I * u * rho * sigma * xi - k) + xi ^ 2 / 2 * (x + y)) * (x - y) := by
    unfold ricR; ring
  rw [e, norm_mul]
  gcongr
  refine (norm_add_le _ _).trans ?_
  gcongr
  rw [norm_mul]
  have : ‖(xi : ℂ) ^ 2 / 2‖ = xi ^ 2 / 2 := by
    rw [show (xi : ℂ) ^ 2 / 2 = ((xi ^ 2 / 2 : ℝ) : ℂ) by push_cast; ring, Complex.norm_real,
      Real.norm_of_nonneg (by positivity)]
  rw [this]
  have : ‖x + y‖ ≤ 2 * b := (norm_add_le _ _).trans (by linarith)
  nlinarith [sq_nonneg xi]

/-- The real part of the coefficient of `y` is never positive, if it is not so initially. -/
theorem ricR_nonpos {sigma k xi rho u T : ℝ} (hr : |rho| ≤ 1) {B : ℝ → ℂ}
    (hB : ∀ t ∈ Icc 0 T, HasDerivAt B (ricR sigma k xi rho u (B t)) t) (h0 : (B 0).re ≤ 0) :
    ∀ t ∈ Icc 0 T, (B t).re ≤ 0 := by
  have hc : ContinuousOn (fun t => (B t).re) (Icc 0 T) := fun t ht =>
    (Complex.continuous_re.continuousAt.comp (hB t ht).continuousAt).continuousWithinAt
  obtain ⟨R, hR⟩ := isCompact_Icc.exists_bound_of_continuousOn hc
  intro t ht
  have hd : ∀ t ∈ Icc 0 T, HasDerivAt (fun t => (B t).re) (ricR sigma k xi rho u (B t)).re t := fun t ht => by
    have := (Complex.reCLM.hasFDerivAt (x := B t)).comp_hasDerivAt t (hB t ht)
    exact this
  set m := |k| + xi ^ 2 / 2 * |R| with hm
  have key : ∀ ε > 0, (B t).re ≤ ε * Real.exp ((m + 1) * t) := by
    intro ε hε
    refine image_le_of_deriv_right_lt_deriv_boundary (f := fun t => (B t).re)
      (f' := fun t => (ricR sigma k xi rho u (B t)).re) (a := 0) (b := T)
      (B := fun t => ε * Real.exp ((m + 1) * t)) (B' := fun t => ε * (Real.exp ((m + 1) * t) * (m + 1)))
      hc (fun x hx => (hd x ⟨hx.1, hx.2.le⟩).hasDerivWithinAt) (by simpa using h0.trans hε.le) ?_ ?_ ht
    · intro x
      have := ((hasDerivAt_id x).const_mul (m + 1)).exp.const_mul ε
      simpa using this
    · intro x hx hxe
      have h1 := ricR_re sigma k xi rho u hr (B x)
      have h2 := hR x ⟨hx.1, hx.2.le⟩
      rw [Real.norm_eq_abs] at h2
      have hp : 0 < ε * Real.exp ((m + 1) * x) := by positivity
      rw [hxe] at h1 h2
      set w := ε * Real.exp ((m + 1) * x) with hw
      rw [abs_of_pos hp] at h2
      have h3 : w ≤ |R| := h2.trans (le_abs_self R)
      have h4 : -k * w + xi ^ 2 / 2 * w ^ 2 ≤ m * w := by
        have k1 : -k ≤ |k| := neg_le_abs k
        have : xi ^ 2 / 2 * w ^ 2 ≤ xi ^ 2 / 2 * |R| * w := by
          have := mul_le_mul_of_nonneg_left h3 (show 0 ≤ xi ^ 2 / 2 * w by positivity)
          nlinarith
        nlinarith
      calc _ ≤ m * w := h1.trans h4
        _ < (m + 1) * w := by linarith
        _ = _ := by rw [hw]; ring
  refine le_of_forall_pos_le_add fun ε hε => ?_
  have := key (ε / Real.exp ((m + 1) * t)) (by positivity)
  rw [div_mul_cancel₀ _ (exp_pos _).ne'] at this
  linarith

/-! ### values below zero -/

variable {Ω : Type} [MeasurableSpace Ω] {P : Measure Ω} [IsProbabilityMeasure P]

theorem below_exp {d M c : ℝ} (hd : 0 < d) {Y : Ω → ℝ} (hY : Measurable Y)
    (h : ∫⁻ ω, ENNReal.ofReal (below d (Y ω)) ∂P ≤ ENNReal.ofReal M) (hM : 0 ≤ M) (hc0 : 0 ≤ c)
    (hc : 2 * c * d ≤ 1) :
    Integrable (fun ω => exp (c * max (-Y ω) 0)) P ∧ ∫ ω, exp (c * max (-Y ω) 0) ∂P ≤ 1 + M ∧
    Integrable (fun ω => max (-Y ω) 0 * exp (c * max (-Y ω) 0)) P ∧
    ∫ ω, max (-Y ω) 0 * exp (c * max (-Y ω) 0) ∂P ≤ 2 * d * M := by
  have hm : Measurable fun ω => below d (Y ω) := (measurable_below d).comp hY
  have hint : Integrable (fun ω => below d (Y ω)) P := by
    refine ⟨hm.aestronglyMeasurable, ?_⟩
    rw [hasFiniteIntegral_iff_ofReal (Filter.Eventually.of_forall fun ω => below_nonneg hd _)]
    exact h.trans_lt ENNReal.ofReal_lt_top
  have hU : ∫ ω, below d (Y ω) ∂P ≤ M := by
    rw [← ENNReal.ofReal_le_ofReal_iff hM, ofReal_integral_eq_lintegral_ofReal hint
      (Filter.Eventually.of_forall fun ω => below_nonneg hd _)]
    exact h
  have hp : ∀ y : ℝ, exp (c * max (-y) 0) ≤ 1 + below d y ∧
      max (-y) 0 * exp (c * max (-y) 0) ≤ 2 * d * below d y := by
    intro y
    unfold below
    have hn : 0 ≤ max (-y) 0 := le_max_right _ _
    generalize max (-y) 0 = n at hn
    set s := exp (n / (2 * d)) with hs
    have e : exp (n / d) = s ^ 2 := by
      rw [hs, ← exp_nat_mul]; congr 1; push_cast; field_simp
    have h1 : 1 ≤ s := one_le_exp (by positivity)
    have h2 : n / (2 * d) + 1 ≤ s := add_one_le_exp _
    have h3 : exp (c * n) ≤ s := by
      apply exp_le_exp.2
      rw [le_div_iff₀ (by positivity)]
      nlinarith
    rw [e]
    refine ⟨by nlinarith, ?_⟩
    have h4 : n ≤ 2 * d * (s - 1) := by
      have : n / (2 * d) ≤ s - 1 := by linarith
      rwa [div_le_iff₀ (by positivity), mul_comm] at this
    calc n * exp (c * n) ≤ 2 * d * (s - 1) * s := by gcongr
      _ ≤ _ := by nlinarith
  have i1 : Integrable (fun ω => exp (c * max (-Y ω) 0)) P := by
    refine ((integrable_const (1 : ℝ)).add hint).mono' (by fun_prop) (Filter.Eventually.of_forall fun ω => ?_)
    rw [Real.norm_of_nonneg (exp_pos _).le]
    exact (hp (Y ω)).1
  have i2 : Integrable (fun ω => max (-Y ω) 0 * exp (c * max (-Y ω) 0)) P := by
    refine (hint.const_mul (2 * d)).mono' (by fun_prop) (Filter.Eventually.of_forall fun ω => ?_)
    rw [Real.norm_of_nonneg (mul_nonneg (le_max_right _ _) (exp_pos _).le)]
    exact (hp (Y ω)).2
  refine ⟨i1, ?_, i2, ?_⟩
  · calc _ ≤ ∫ ω, (1 + below d (Y ω)) ∂P :=
        integral_mono i1 ((integrable_const _).add hint) fun ω => (hp (Y ω)).1
      _ = 1 + ∫ ω, below d (Y ω) ∂P := by rw [integral_add (integrable_const _) hint]; simp
      _ ≤ 1 + M := by linarith
  · calc _ ≤ ∫ ω, 2 * d * below d (Y ω) ∂P := integral_mono i2 (hint.const_mul _) fun ω => (hp (Y ω)).2
      _ = 2 * d * ∫ ω, below d (Y ω) ∂P := integral_const_mul _ _
      _ ≤ _ := by gcongr

/-! ### one step -/

/-- The expected value, after one step, of the exponential of an affine function. -/
theorem affine_inner (mu sigma theta k xi u : ℝ) {rho h : ℝ} (hr : |rho| ≤ 1) (hh : 0 ≤ h)
    {N : Measure (ℝ × ℝ)} (hN : CorrNormal rho h N) (a b : ℂ) (p : ℝ × ℝ) :
    ∫ z, Complex.exp (I * u * (hestonStep mu sigma theta k xi h p z).1 + a +
      b * (hestonStep mu sigma theta k xi h p z).2) ∂N =
    Complex.exp (I * u * p.1 + (a + h * (I * u * mu + k * theta * b)) +
      (b * p.2 + h * max p.2 0 * ricR sigma k xi rho u b)) := by
  set s := √(max p.2 0) with hs
  have hs2 : (s : ℂ) ^ 2 = (max p.2 0 : ℝ) := by
    rw [← Complex.ofReal_pow, hs, sq_sqrt (le_max_right _ _)]
  have e : ∀ z : ℝ × ℝ, Complex.exp (I * u * (hestonStep mu sigma theta k xi h p z).1 + a +
      b * (hestonStep mu sigma theta k xi h p z).2) =
      Complex.exp (I * u * (p.1 + (mu - sigma ^ 2 * (max p.2 0 : ℝ) / 2) * h) + a +
        b * (p.2 + k * (theta - (max p.2 0 : ℝ)) * h)) *
      Complex.exp ((I * u * sigma * s) * z.1 + (b * xi * s) * z.2) := by
    intro z
    rw [← Complex.exp_add]
    congr 1
    unfold hestonStep cirStep
    rw [← hs]
    push_cast
    ring
  simp only [e]
  rw [integral_const_mul, (corrNormal_cexp hr hh hN _ _).2, ← Complex.exp_add]
  congr 1
  unfold ricR
  linear_combination (h * ((I * u * sigma) ^ 2 + 2 * rho * (I * u * sigma) * (b * xi) + (b * xi) ^ 2) / 2 : ℂ) *
    hs2 + (h * (max p.2 0 : ℝ) * u ^ 2 * sigma ^ 2 / 2 : ℂ) * Complex.I_sq

/-- How the exponent of `affine_inner` compares to the one at the beginning of the step. -/
theorem affine_exponents {sigma k xi rho u : ℝ} (hr : |rho| ≤ 1) {h b b1 L : ℝ} (hh : 0 ≤ h)
    (hk : k * h + h * xi ^ 2 / 2 * b ≤ 1) {B0 B1 : ℂ} (n1 : ‖B1‖ ≤ b) (r0 : B0.re ≤ 0)
    (r1 : B1.re ≤ 0) (n0 : ‖B0‖ ≤ b) (l1 : ‖B1 - B0‖ ≤ b1 * h)
    (l2 : ‖B0 - B1 - h * ricR sigma k xi rho u B1‖ ≤ L * h ^ 2) (y : ℝ) :
    (B1 * y + h * max y 0 * ricR sigma k xi rho u B1).re ≤ b * max (-y) 0 ∧
    (B0 * y).re ≤ b * max (-y) 0 ∧
    ‖B1 * y + h * max y 0 * ricR sigma k xi rho u B1 - B0 * y‖ ≤
      L * h ^ 2 * max y 0 + b1 * h * max (-y) 0 := by
  have hb : 0 ≤ b := (norm_nonneg _).trans n1
  rcases le_or_gt 0 y with hy | hy
  · rw [max_eq_left hy, max_eq_right (by linarith : -y ≤ 0)]
    refine ⟨?_, ?_, ?_⟩
    · rw [show B1 * y + h * y * ricR sigma k xi rho u B1 = (y : ℂ) * (B1 + (h : ℂ) * ricR sigma k xi rho u B1)
        by ring, Complex.re_ofReal_mul, Complex.add_re, Complex.re_ofReal_mul, mul_zero]
      refine mul_nonpos_of_nonneg_of_nonpos hy ?_
      have h1 := mul_le_mul_of_nonneg_left (ricR_re sigma k xi rho u hr B1) hh
      have h2 : -b ≤ B1.re := by
        have := (Complex.abs_re_le_norm B1).trans n1
        exact (abs_le.1 this).1
      have h3 : 0 ≤ 1 - k * h + h * xi ^ 2 / 2 * B1.re := by
        have := mul_le_mul_of_nonneg_left h2 (show 0 ≤ h * xi ^ 2 / 2 by positivity)
        linarith
      have h4 := mul_nonpos_of_nonpos_of_nonneg r1 h3
      nlinarith
    · rw [mul_comm, Complex.re_ofReal_mul, mul_zero]
      exact mul_nonpos_of_nonneg_of_nonpos hy r0
    · rw [show B1 * y + h * y * ricR sigma k xi rho u B1 - B0 * y =
        -((y : ℂ) * (B0 - B1 - h * ricR sigma k xi rho u B1)) by ring, norm_neg, norm_mul, Complex.norm_real,
        Real.norm_of_nonneg hy]
      have := mul_le_mul_of_nonneg_left l2 hy
      linarith
  · rw [max_eq_right hy.le, max_eq_left (by linarith : 0 ≤ -y)]
    simp only [Complex.ofReal_zero, mul_zero, zero_mul, add_zero, zero_add]
    have key : ∀ z : ℂ, ‖z‖ ≤ b → (z * y).re ≤ b * -y := by
      intro z hz
      rw [mul_comm, Complex.re_ofReal_mul]
      have := (Complex.abs_re_le_norm z).trans hz
      have := (abs_le.1 this).1
      nlinarith
    refine ⟨key _ n1, key _ n0, ?_⟩
    rw [← sub_mul, norm_mul, Complex.norm_real, Real.norm_of_nonpos hy.le]
    exact mul_le_mul_of_nonneg_right l1 (by linarith)

theorem affine_integrable {X : Ω → ℝ × ℝ} (hX : Measurable X) {b : ℝ} {a B : ℂ} (hB : ‖B‖ ≤ b) (r : B.re ≤ 0)
    (hi : Integrable (fun ω => exp (b * max (-(X ω).2) 0)) P) (u : ℝ) :
    Integrable (fun ω => Complex.exp (I * u * (X ω).1 + a + B * (X ω).2)) P := by
  refine (hi.const_mul (exp a.re)).mono' (by fun_prop) (Filter.Eventually.of_forall fun ω => ?_)
  rw [Complex.norm_exp, ← exp_add]
  apply exp_le_exp.2
  have e : (I * u * (X ω).1 : ℂ).re = 0 := by simp
  rw [Complex.add_re, Complex.add_re, e, zero_add, mul_comm B, Complex.re_ofReal_mul]
  refine add_le_add le_rfl ?_
  have hb : 0 ≤ b := (norm_nonneg _).trans hB
  rcases le_or_gt 0 (X ω).2 with hy | hy
  · exact (mul_nonpos_of_nonneg_of_nonpos hy r).trans (mul_nonneg hb (le_max_right _ _))
  · have := (abs_le.1 ((Complex.abs_re_le_norm B).trans hB)).1
    rw [max_eq_left (by linarith)]
    nlinarith

/-- One step of the expected value of an exponential. -/
theorem affine_step {mu sigma theta k xi u rho h : ℝ} (hr : |rho| ≤ 1) (hh : 0 ≤ h) (hh1 : h ≤ 1)
    {b b1 L α a1 a2 : ℝ} (hL : 0 ≤ L) (hb1 : 0 ≤ b1) (ha2 : 0 ≤ a2)
    (hk : k * h + h * xi ^ 2 / 2 * b ≤ 1) {A0 A1 B0 B1 : ℂ}
    (n1 : ‖B1‖ ≤ b) (r0 : B0.re ≤ 0) (r1 : B1.re ≤ 0) (n0 : ‖B0‖ ≤ b) (l1 : ‖B1 - B0‖ ≤ b1 * h)
    (l2 : ‖B0 - B1 - h * ricR sigma k xi rho u B1‖ ≤ L * h ^ 2) (m0 : ‖A0‖ ≤ α) (m1 : ‖A1‖ ≤ α)
    (m2 : ‖I * u * mu + k * theta * B1‖ ≤ a1)
    (l3 : ‖A0 - A1 - h * (I * u * mu + k * theta * B1)‖ ≤ a2 * h ^ 2)
    {X : Ω → ℝ × ℝ} (hX : Measurable X) {Z : Ω → ℝ × ℝ} (hZ : Measurable Z) {N : Measure (ℝ × ℝ)}
    (hl : HasLaw Z N P) (hN : CorrNormal rho h N) (hi : IndepFun X Z P)
    (e1 : Integrable (fun ω => exp (b * max (-(X ω).2) 0)) P)
    (e2 : Integrable (fun ω => max (-(X ω).2) 0 * exp (b * max (-(X ω).2) 0)) P)
    (e3 : Integrable (fun ω => max (X ω).2 0) P)
    (e4 : Integrable (fun ω => exp (b * max (-(hestonStep mu sigma theta k xi h (X ω) (Z ω)).2) 0)) P) :
    ‖∫ ω, Complex.exp (I * u * (hestonStep mu sigma theta k xi h (X ω) (Z ω)).1 + A1 +
        B1 * (hestonStep mu sigma theta k xi h (X ω) (Z ω)).2) ∂P -
      ∫ ω, Complex.exp (I * u * (X ω).1 + A0 + B0 * (X ω).2) ∂P‖ ≤
    exp (α + a1) * (a2 + L + b1) * (h ^ 2 * (∫ ω, max (X ω).2 0 ∂P +
      ∫ ω, exp (b * max (-(X ω).2) 0) ∂P) + h * ∫ ω, max (-(X ω).2) 0 * exp (b * max (-(X ω).2) 0) ∂P) := by
  have hms : Measurable fun q : (ℝ × ℝ) × (ℝ × ℝ) => hestonStep mu sigma theta k xi h q.1 q.2 := by
    unfold hestonStep cirStep; fun_prop
  have hstep : Measurable fun ω => hestonStep mu sigma theta k xi h (X ω) (Z ω) :=
    hms.comp (hX.prodMk hZ)
  have ib := affine_integrable (a := A1) hstep n1 r1 e4 u
  have ia := affine_integrable (a := A0) hX n0 r0 e1 u
  have hj := (indepFun_iff_map_prod_eq_prod_map_map hX.aemeasurable hZ.aemeasurable).1 hi
  rw [hl.map_eq] at hj
  have : IsProbabilityMeasure (P.map X) := Measure.isProbabilityMeasure_map hX.aemeasurable
  have := corrNormal_isProb hN
  set F : (ℝ × ℝ) × (ℝ × ℝ) → ℂ := fun q => Complex.exp (I * u * (hestonStep mu sigma theta k xi h q.1 q.2).1 +
    A1 + B1 * (hestonStep mu sigma theta k xi h q.1 q.2).2) with hF
  have mF : Measurable F := by
    have := hms.fst
    have := hms.snd
    fun_prop
  have iF : Integrable F ((P.map X).prod N) := by
    rw [← hj, integrable_map_measure mF.aestronglyMeasurable (by fun_prop)]
    exact ib
  set G : ℝ × ℝ → ℂ := fun p => Complex.exp (I * u * p.1 + (A1 + h * (I * u * mu + k * theta * B1)) +
      (B1 * p.2 + h * max p.2 0 * ricR sigma k xi rho u B1)) with hG
  have eG : ∀ p, ∫ z, F (p, z) ∂N = G p := fun p => affine_inner mu sigma theta k xi u hr hh hN A1 B1 p
  have mG : Measurable G := by
    fun_prop
  have iG : Integrable (fun ω => G (X ω)) P := by
    have := iF.integral_prod_left
    simp only [eG] at this
    rwa [integrable_map_measure mG.aestronglyMeasurable hX.aemeasurable] at this
  have eb : ∫ ω, Complex.exp (I * u * (hestonStep mu sigma theta k xi h (X ω) (Z ω)).1 + A1 +
        B1 * (hestonStep mu sigma theta k xi h (X ω) (Z ω)).2) ∂P = ∫ ω, G (X ω) ∂P := by
    calc _ = ∫ ω, F (X ω, Z ω) ∂P := rfl
      _ = ∫ q, F q ∂(P.map fun ω => (X ω, Z ω)) :=
          (integral_map (by fun_prop) mF.aestronglyMeasurable).symm
      _ = ∫ p, ∫ z, F (p, z) ∂N ∂(P.map X) := by rw [hj, integral_prod _ iF]
      _ = ∫ p, G p ∂(P.map X) := by simp only [eG]
      _ = _ := integral_map hX.aemeasurable mG.aestronglyMeasurable
  rw [eb, ← integral_sub iG ia]
  have hpt : ∀ ω, ‖G (X ω) - Complex.exp (I * u * (X ω).1 + A0 + B0 * (X ω).2)‖ ≤
      exp (α + a1) * (a2 + L + b1) * (h ^ 2 * (max (X ω).2 0 + exp (b * max (-(X ω).2) 0)) +
        h * (max (-(X ω).2) 0 * exp (b * max (-(X ω).2) 0))) := by
    intro ω
    generalize hx : X ω = p
    obtain ⟨q1, q2, q3⟩ := affine_exponents (sigma := sigma) (k := k) (xi := xi) (rho := rho) (u := u) hr hh hk
      n1 r0 r1 n0 l1 l2 p.2
    set n := max (-p.2) 0 with hn
    set y := max p.2 0 with hy
    have hn0 : 0 ≤ n := le_max_right _ _
    have hy0 : 0 ≤ y := le_max_right _ _
    have hyn : y * exp (b * n) = y := by
      rcases le_or_gt 0 p.2 with h | h
      · rw [hn, max_eq_right (by linarith : -p.2 ≤ 0)]; simp
      · rw [hy, max_eq_right h.le]; simp
    have r : (I * u * p.1 : ℂ).re = 0 := by simp
    have c1 : (A1 + h * (I * u * mu + k * theta * B1)).re ≤ α + a1 := by
      rw [Complex.add_re, Complex.re_ofReal_mul]
      have t1 := (Complex.re_le_norm A1).trans m1
      have t2 := (Complex.re_le_norm _).trans m2
      have t3 : 0 ≤ a1 := (norm_nonneg _).trans m2
      nlinarith
    have c0 : A0.re ≤ α + a1 := by
      have t1 := (Complex.re_le_norm A0).trans m0
      have t3 : 0 ≤ a1 := (norm_nonneg _).trans m2
      linarith
    refine (exp_sub_le (M := α + a1 + b * n) ?_ ?_).trans ?_
    · rw [Complex.add_re, Complex.add_re, r, zero_add]; exact add_le_add c1 q1
    · rw [Complex.add_re, Complex.add_re, r, zero_add]; exact add_le_add c0 q2
    · have hd : ‖I * u * p.1 + (A1 + h * (I * u * mu + k * theta * B1)) +
          (B1 * p.2 + h * y * ricR sigma k xi rho u B1) - (I * u * p.1 + A0 + B0 * p.2)‖ ≤
          a2 * h ^ 2 + (L * h ^ 2 * y + b1 * h * n) := by
        rw [show I * u * p.1 + (A1 + h * (I * u * mu + k * theta * B1)) +
          (B1 * p.2 + h * y * ricR sigma k xi rho u B1) - (I * u * p.1 + A0 + B0 * p.2) =
          -(A0 - A1 - h * (I * u * mu + k * theta * B1)) +
          (B1 * p.2 + h * y * ricR sigma k xi rho u B1 - B0 * p.2) by ring]
        refine (norm_add_le _ _).trans (add_le_add ?_ q3)
        rw [norm_neg]; exact l3
      rw [exp_add]
      have hE : 1 ≤ exp (b * n) := one_le_exp (mul_nonneg ((norm_nonneg _).trans n1) hn0)
      set C := a2 + L + b1 with hC
      have hC0 : 0 ≤ C := by positivity
      have hd2 : a2 * h ^ 2 + (L * h ^ 2 * y + b1 * h * n) ≤ C * (h ^ 2 * (1 + y) + h * n) := by
        have t1 : 0 ≤ h ^ 2 := sq_nonneg h
        have t2 : 0 ≤ h ^ 2 * y := by positivity
        have t3 : 0 ≤ h * n := by positivity
        have : C * (h ^ 2 * (1 + y) + h * n) - (a2 * h ^ 2 + (L * h ^ 2 * y + b1 * h * n)) =
          (L + b1) * h ^ 2 + (a2 + b1) * (h ^ 2 * y) + (a2 + L) * (h * n) := by rw [hC]; ring
        have : 0 ≤ (L + b1) * h ^ 2 + (a2 + b1) * (h ^ 2 * y) + (a2 + L) * (h * n) := by positivity
        linarith
      calc _ ≤ exp (α + a1) * exp (b * n) * (C * (h ^ 2 * (1 + y) + h * n)) := by
            gcongr
            exact hd.trans hd2
        _ = exp (α + a1) * C * (h ^ 2 * (y * exp (b * n) + exp (b * n)) + h * (n * exp (b * n))) := by ring
        _ = _ := by rw [hyn]
  refine (norm_integral_le_integral_norm _).trans ?_
  calc _ ≤ ∫ ω, exp (α + a1) * (a2 + L + b1) * (h ^ 2 * (max (X ω).2 0 + exp (b * max (-(X ω).2) 0)) +
        h * (max (-(X ω).2) 0 * exp (b * max (-(X ω).2) 0))) ∂P :=
        integral_mono (iG.sub ia).norm ((((e3.add e1).const_mul _).add (e2.const_mul _)).const_mul _) hpt
    _ = _ := by
        have i5 : Integrable (fun ω => h ^ 2 * (max (X ω).2 0 + exp (b * max (-(X ω).2) 0))) P :=
          (e3.add e1).const_mul _
        rw [integral_const_mul, integral_add i5 (e2.const_mul _), integral_const_mul,
          integral_const_mul, integral_add e3 e1]

/-! ### along a grid -/

set_option maxHeartbeats 1000000 in
/-- The expected value of the exponential of an affine function of simulated values, whose coefficients solve
the Riccati equations, is the value it has initially, within the order of the longest step. -/
theorem affine_order {mu sigma theta k xi rho u : ℝ} (hth : 0 < theta) (hk : 0 < k) (hr : |rho| ≤ 1)
    {A B : ℝ → ℂ} {T : ℝ} (hT : 0 ≤ T) (hA : ∀ t ∈ Icc 0 T, HasDerivAt A (I * u * mu + k * theta * B t) t)
    (hB : ∀ t ∈ Icc 0 T, HasDerivAt B (ricR sigma k xi rho u (B t)) t) (hB0 : (B 0).re ≤ 0) {y0 : ℝ}
    (hy : 0 ≤ y0) :
    ∃ K δ0 : ℝ, 0 < K ∧ 0 < δ0 ∧ ∀ (Ω : Type) [MeasurableSpace Ω] (P : Measure Ω) [IsProbabilityMeasure P]
      (grid : List ℝ) (t0 δ : ℝ) (X : ℝ → Ω → ℝ × ℝ) (l0 : ℝ), grid.Pairwise (· < ·) → t0 ∈ grid →
      Mesh grid δ → 0 < δ → δ ≤ δ0 → (∀ ω, X t0 ω = (l0, y0)) → (∀ s ∈ grid, Measurable (X s)) →
      (∀ a b, StepOf grid t0 a b → t0 ≤ a → a < b → ∃ (Z : Ω → ℝ × ℝ) (N : Measure (ℝ × ℝ)), Measurable Z ∧
        HasLaw Z N P ∧ CorrNormal rho |b - a| N ∧ IndepFun (X a) Z P ∧
        ∀ ω, X b ω = hestonStep mu sigma theta k xi (b - a) (X a ω) (Z ω)) →
      ∀ t ∈ grid, t0 ≤ t → t ≤ t0 + T →
        ‖∫ ω, Complex.exp (I * u * (X t ω).1 + A 0 + B 0 * (X t ω).2) ∂P -
          Complex.exp (I * u * l0 + A (t - t0) + B (t - t0) * y0)‖ ≤ K * δ := by
  have hre := ricR_nonpos hr hB hB0
  have cB : ContinuousOn B (Icc 0 T) := fun t ht => (hB t ht).continuousAt.continuousWithinAt
  have cA : ContinuousOn A (Icc 0 T) := fun t ht => (hA t ht).continuousAt.continuousWithinAt
  obtain ⟨b, hb⟩ := isCompact_Icc.exists_bound_of_continuousOn cB
  obtain ⟨α, hα⟩ := isCompact_Icc.exists_bound_of_continuousOn cA
  have z0 : (0 : ℝ) ∈ Icc 0 T := ⟨le_rfl, hT⟩
  have hb0 : 0 ≤ b := (norm_nonneg _).trans (hb 0 z0)
  -- bounds of derivatives
  set cc := ‖I * u * rho * sigma * xi - k‖ + xi ^ 2 * b with hcc
  have hcc0 : 0 ≤ cc := by positivity
  set b1 := ‖ricR sigma k xi rho u 0‖ + cc * b with hb1
  have hb10 : 0 ≤ b1 := by positivity
  have hR : ∀ t ∈ Icc 0 T, ‖ricR sigma k xi rho u (B t)‖ ≤ b1 := by
    intro t ht
    have h1 := ricR_lipschitz sigma k xi rho u (hb t ht) (y := 0) (by simpa using hb0)
    rw [sub_zero] at h1
    have h2 := norm_sub_norm_le (ricR sigma k xi rho u (B t)) (ricR sigma k xi rho u 0)
    have h3 : cc * ‖B t‖ ≤ cc * b := by gcongr; exact hb t ht
    rw [hb1]
    linarith
  set a1 := ‖I * u * mu‖ + k * theta * b with ha1
  have hA' : ∀ t ∈ Icc 0 T, ‖I * u * mu + k * theta * B t‖ ≤ a1 := by
    intro t ht
    refine (norm_add_le _ _).trans ?_
    rw [ha1]
    gcongr
    rw [norm_mul, norm_mul, Complex.norm_real, Complex.norm_real, Real.norm_of_nonneg hk.le,
      Real.norm_of_nonneg hth.le]
    gcongr
    exact hb t ht
  have lipB : ∀ s t, 0 ≤ s → s ≤ t → t ≤ T → ‖B t - B s‖ ≤ b1 * (t - s) := by
    intro s t hs hst ht
    exact norm_image_sub_le_of_norm_deriv_le_segment' (f := B) (f' := fun t => ricR sigma k xi rho u (B t))
      (a := s) (b := t) (fun x hx => (hB x ⟨hs.trans hx.1, hx.2.trans ht⟩).hasDerivWithinAt)
      (fun x hx => hR x ⟨hs.trans hx.1, hx.2.le.trans ht⟩) t ⟨hst, le_rfl⟩
  set L := cc * b1 with hL
  set a2 := k * theta * b1 with ha2
  have tB : ∀ s h, 0 ≤ s → 0 ≤ h → s + h ≤ T →
      ‖B (s + h) - B s - h * ricR sigma k xi rho u (B s)‖ ≤ L * h ^ 2 := by
    intro s h hs hh hT'
    refine taylor_one hh (f' := fun t => ricR sigma k xi rho u (B t))
      (fun x hx => hB x ⟨hs.trans hx.1, hx.2.trans hT'⟩) (fun x hx => ?_)
    have hx' : x ∈ Icc 0 T := ⟨hs.trans hx.1, hx.2.trans hT'⟩
    refine (ricR_lipschitz sigma k xi rho u (hb x hx') (hb s ⟨hs, by linarith⟩)).trans ?_
    rw [hL, mul_assoc cc]
    refine mul_le_mul_of_nonneg_left ?_ hcc0
    exact lipB s x hs hx.1 (hx.2.trans hT')
  have tA : ∀ s h, 0 ≤ s → 0 ≤ h → s + h ≤ T →
      ‖A (s + h) - A s - h * (I * u * mu + k * theta * B s)‖ ≤ a2 * h ^ 2 := by
    intro s h hs hh hT'
    refine taylor_one hh (f' := fun t => I * u * mu + k * theta * B t)
      (fun x hx => hA x ⟨hs.trans hx.1, hx.2.trans hT'⟩) (fun x hx => ?_)
    rw [show I * u * mu + k * theta * B x - (I * u * mu + k * theta * B s) = (k * theta : ℂ) * (B x - B s) by
      ring, norm_mul, norm_mul, Complex.norm_real, Complex.norm_real, Real.norm_of_nonneg hk.le,
      Real.norm_of_nonneg hth.le, ha2, mul_assoc (k * theta)]
    gcongr
    exact lipB s x hs hx.1 (hx.2.trans hT')
  -- constants for values below zero
  set c := 1 / (1 + xi ^ 2) with hc
  have hc0 : 0 < c := by positivity
  have hcx : c * xi ^ 2 ≤ 1 := by
    rw [hc, div_mul_eq_mul_div, one_mul, div_le_one (by positivity)]; linarith
  set M := 1 / (1 - exp (-(c * k * theta))) with hM
  have hM0 : 0 ≤ M := by
    have : exp (-(c * k * theta)) < 1 := by
      rw [exp_lt_one_iff]
      have : 0 < c * k * theta := by positivity
      linarith
    exact (one_div_pos.2 (by linarith)).le
  obtain ⟨β, hβ, hnear⟩ := cir_near hth hk xi
  set Ym := y0 + k * theta * T + β with hYm
  have hYm0 : 0 ≤ Ym := by positivity
  set C := exp (α + a1) * (a2 + L + b1) * (Ym + (1 + M) + 2 * (1 / c) * M) with hC
  have hα0 : 0 ≤ α := (norm_nonneg _).trans (hα 0 z0)
  have hC0 : 0 ≤ C := by positivity
  refine ⟨C * T + 1, min (min 1 (1 / (2 * k))) (min (1 / (k + xi ^ 2 / 2 * b)) (c / (2 * b + 1))),
    by positivity, by positivity, ?_⟩
  intro Ω _ P _ grid t0 δ X l0 hg h0 hm hδ hδ0 hs hX hstep t ht hle htT
  have d1 : δ ≤ 1 := hδ0.trans ((min_le_left _ _).trans (min_le_left _ _))
  have d2 : δ ≤ 1 / (2 * k) := hδ0.trans ((min_le_left _ _).trans (min_le_right _ _))
  have d3 : δ * (k + xi ^ 2 / 2 * b) ≤ 1 := by
    have := hδ0.trans ((min_le_right _ _).trans (min_le_left _ _))
    rwa [le_div_iff₀ (by positivity)] at this
  have d4 : 2 * b * (δ / c) ≤ 1 := by
    have := hδ0.trans ((min_le_right _ _).trans (min_le_right _ _))
    rw [le_div_iff₀ (by positivity)] at this
    rw [mul_div_assoc', div_le_one hc0]
    linarith
  have d5 : k * δ ≤ 1 / 2 := by rw [le_div_iff₀ (by positivity)] at d2; linarith
  have mesh : ∀ a b, StepOf grid t0 a b → a < b → b - a ≤ δ := by
    intro a b hst hab
    obtain ⟨m1, m2, ⟨-, -, h3⟩ | ⟨-, h2, -⟩⟩ := hst
    · exact hm a m1 b m2 hab h3
    · exact absurd hab (not_lt.2 h2.le)
  have ystep : ∀ a b, StepOf grid t0 a b → t0 ≤ a → a < b → ∃ Z : Ω → ℝ, Measurable Z ∧
      HasLaw Z (gaussianReal 0 |b - a|.toNNReal) P ∧ IndepFun (fun ω => (X a ω).2) Z P ∧
      ∀ ω, (X b ω).2 = cirStep theta k xi (b - a) (X a ω).2 (Z ω) := by
    intro a b hst ha hab
    obtain ⟨Z, N, z1, z2, z3, z4, z5⟩ := hstep a b hst ha hab
    refine ⟨fun ω => (Z ω).2, by fun_prop, (corr_noise (corrNormal_noise hr (abs_nonneg _) z3) z1 z2).2.1,
      z4.comp (φ := Prod.snd) (ψ := Prod.snd) measurable_snd measurable_snd,
      fun ω => by rw [z5]; rfl⟩
  have hY : ∀ s ∈ grid, Measurable fun ω => (X s ω).2 := fun s hs => measurable_snd.comp (hX s hs)
  have hbel := cir_below hth hk hc0 hcx hg h0 hm hδ d5 hy (Y := fun s ω => (X s ω).2)
    (fun ω => by simp [hs]) hY ystep
  have hn := hnear Ω P grid t0 δ (fun s ω => (X s ω).2) y0 hg h0 hm hδ d2 hy (fun ω => by simp [hs]) hY ystep
  have hexp := fun s (hs : s ∈ grid) (h : t0 ≤ s) => below_exp (P := P) (c := b) (div_pos hδ hc0) (hY s hs)
    (hbel s hs h) hM0 hb0 d4
  have hmean := grid_induction (Q := fun s => ∫ ω, (X s ω).2 ∂P ≤ y0 + k * theta * (s - t0)) hg h0
    (by simp [hs]) (by
      intro a b' hst ha hab ih
      obtain ⟨Z, z1, z2, z3, z4⟩ := ystep a b' hst ha hab
      simp only [z4]
      have hna := hn a hst.1 ha
      rw [hna.mean_step theta k xi (b' - a) z3 z2]
      have hp : 0 ≤ ∫ ω, (X a ω).2 ∂P + ∫ ω, max (-(X a ω).2) 0 ∂P := by
        rw [← hna.pos_mean]
        exact integral_nonneg fun ω => le_max_right _ _
      have hab0 : 0 ≤ b' - a := by linarith
      have := mul_nonneg (mul_nonneg hk.le hp) hab0
      nlinarith)
  have hpos : ∀ s ∈ grid, t0 ≤ s → s ≤ t0 + T → ∫ ω, max (X s ω).2 0 ∂P ≤ Ym := by
    intro s hs h1 h2
    rw [(hn s hs h1).pos_mean]
    have e1 := hmean s hs h1
    have e2 := (hn s hs h1).mean
    have e3 : β * δ ≤ β := mul_le_of_le_one_right hβ.le d1
    have e4 : k * theta * (s - t0) ≤ k * theta * T := by gcongr; linarith
    rw [hYm]
    linarith
  have key := grid_induction (Q := fun s => s ≤ t →
    ‖∫ ω, Complex.exp (I * u * (X s ω).1 + A (t - s) + B (t - s) * (X s ω).2) ∂P -
      Complex.exp (I * u * l0 + A (t - t0) + B (t - t0) * y0)‖ ≤ C * δ * (s - t0)) hg h0
    (fun _ => by simp [hs]) (by
      intro a b' hst ha hab ih hb't
      have hh0 : 0 < b' - a := by linarith
      have hhδ := mesh a b' hst hab
      obtain ⟨Z, N, z1, z2, z3, z4, z5⟩ := hstep a b' hst ha hab
      rw [abs_of_pos hh0] at z3
      have m1 : t - b' ∈ Icc 0 T := ⟨by linarith, by linarith⟩
      have m0 : t - a ∈ Icc 0 T := ⟨by linarith, by linarith⟩
      have e0 : t - a = t - b' + (b' - a) := by ring
      obtain ⟨x1, x2, x3, x4⟩ := hexp a hst.1 ha
      obtain ⟨w1, -, -, -⟩ := hexp b' hst.2.1 (ha.trans hab.le)
      have st := affine_step (mu := mu) (sigma := sigma) (theta := theta) (k := k) (xi := xi) (u := u) hr hh0.le
        (hhδ.trans d1) (L := L) (b1 := b1) (a2 := a2) (b := b) (by positivity) hb10 (by positivity)
        (by
          have : (b' - a) * (k + xi ^ 2 / 2 * b) ≤ δ * (k + xi ^ 2 / 2 * b) := by gcongr
          linarith)
        (hb _ m1) (hre _ m0) (hre _ m1) (hb _ m0)
        (by
          have := lipB (t - b') (t - a) m1.1 (by linarith) m0.2
          rw [norm_sub_rev]
          refine this.trans (le_of_eq (by ring)))
        (by rw [e0]; exact tB _ _ m1.1 hh0.le (by rw [← e0]; exact m0.2))
        (hα _ m0) (hα _ m1) (hA' _ m1)
        (by rw [e0]; exact tA _ _ m1.1 hh0.le (by rw [← e0]; exact m0.2))
        (hX a hst.1) z1 z2 z3 z4 x1 x3 ((hn a hst.1 ha).pos_l2.integrable one_le_two)
        (by simpa only [z5] using w1)
      simp only [← z5] at st
      have ih' := ih (by linarith)
      have hp := hpos a hst.1 ha (by linarith)
      have bound : exp (α + a1) * (a2 + L + b1) * ((b' - a) ^ 2 * (∫ ω, max (X a ω).2 0 ∂P +
          ∫ ω, exp (b * max (-(X a ω).2) 0) ∂P) + (b' - a) *
          ∫ ω, max (-(X a ω).2) 0 * exp (b * max (-(X a ω).2) 0) ∂P) ≤ C * δ * (b' - a) := by
        have q1 : (b' - a) ^ 2 * (∫ ω, max (X a ω).2 0 ∂P + ∫ ω, exp (b * max (-(X a ω).2) 0) ∂P) ≤
            (b' - a) * δ * (Ym + (1 + M)) := by
          rw [pow_two]
          have i1 : 0 ≤ ∫ ω, max (X a ω).2 0 ∂P := integral_nonneg fun ω => le_max_right _ _
          have i2 : 0 ≤ ∫ ω, exp (b * max (-(X a ω).2) 0) ∂P := integral_nonneg fun ω => (exp_pos _).le
          gcongr
        have q2 : (b' - a) * ∫ ω, max (-(X a ω).2) 0 * exp (b * max (-(X a ω).2) 0) ∂P ≤
            (b' - a) * (2 * (δ / c) * M) := by gcongr
        calc _ ≤ exp (α + a1) * (a2 + L + b1) * ((b' - a) * δ * (Ym + (1 + M)) +
              (b' - a) * (2 * (δ / c) * M)) := by gcongr
          _ = _ := by rw [hC]; ring
      calc _ ≤ _ + _ := norm_sub_le_norm_sub_add_norm_sub _
            (∫ ω, Complex.exp (I * u * (X a ω).1 + A (t - a) + B (t - a) * (X a ω).2) ∂P) _
        _ ≤ C * δ * (b' - a) + C * δ * (a - t0) := add_le_add (st.trans bound) ih'
        _ = _ := by ring) t ht hle le_rfl
  rw [sub_self] at key
  refine key.trans ?_
  calc C * δ * (t - t0) ≤ C * δ * T := by gcongr; linarith
    _ ≤ (C * T + 1) * δ := by nlinarith

end Sdepy
