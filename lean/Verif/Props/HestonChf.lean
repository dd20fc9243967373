import Verif.Model.Analytical
import Mathlib.Analysis.SpecialFunctions.Complex.LogDeriv
import Mathlib.Analysis.SpecialFunctions.Trigonometric.Bounds
import Mathlib.Analysis.SpecialFunctions.Pow.Deriv
import Mathlib.Analysis.Real.Pi.Bounds

/-!
# Characteristic function of the Heston process (C54)
-/

namespace Sdepy
namespace Spec
end Spec
open Spec Real Set Filter Topology
open Complex (I)

/-! ### specification -/

/-- Backward Kolmogorov equation of the Heston process
`dx = mu*x*dt + sigma*x*sqrt(y)*dw1`, `dy = k*(theta - y)*dt + xi*sqrt(y)*dw2`, with correlation `rho`
between `dw1` and `dw2`, in terms of time, of the logarithm `l` of `x`, and of `y`: it holds for the
expected value, after a time `t`, of a function of `l`, as a function of `t`, and of the initial `l` and
`y`. -/
structure Spec.HestonBackward (mu sigma theta k xi rho : ℝ) (f : ℝ → ℝ → ℝ → ℂ) (t l y : ℝ) : Prop where
  eq : ∃ ft : ℂ, ∃ fl fy fll fly fyy : ℝ → ℝ → ℂ,
    HasDerivAt (fun t' => f t' l y) ft t ∧
    (∀ l' y', HasDerivAt (fun l'' => f t l'' y') (fl l' y') l') ∧
    (∀ l' y', HasDerivAt (fun y'' => f t l' y'') (fy l' y') y') ∧
    (∀ l' y', HasDerivAt (fun l'' => fl l'' y') (fll l' y') l') ∧
    (∀ l' y', HasDerivAt (fun y'' => fl l' y'') (fly l' y') y') ∧
    (∀ l' y', HasDerivAt (fun y'' => fy l' y'') (fyy l' y') y') ∧
    ft = (mu - sigma ^ 2 * y / 2) * fl l y + sigma ^ 2 * y / 2 * fll l y +
      k * (theta - y) * fy l y + xi ^ 2 * y / 2 * fyy l y + rho * sigma * xi * y * fly l y

/-! ### the square root -/

theorem npCsqrt_sq (z : ℂ) : npCsqrt z ^ 2 = z := by
  unfold npCsqrt
  have := Complex.cpow_nat_inv_pow z (n := 2) (by norm_num)
  rw [one_div]
  exact_mod_cast this

theorem npCsqrt_re_pos {z : ℂ} (hz : z ∈ Complex.slitPlane) : 0 < (npCsqrt z).re := by
  unfold npCsqrt
  rw [Complex.cpow_def_of_ne_zero (Complex.slitPlane_ne_zero hz), Complex.exp_re]
  refine mul_pos (exp_pos _) (cos_pos_of_mem_Ioo ?_)
  have him : (Complex.log z * (1 / 2)).im = Complex.arg z / 2 := by
    have : Complex.log z * (1 / 2) = Complex.log z * ((1 / 2 : ℝ) : ℂ) := by push_cast; ring
    rw [this, Complex.im_mul_ofReal, Complex.log_im]; ring
  rw [him]
  have h1 := Complex.neg_pi_lt_arg z
  have h2 := Complex.arg_le_pi z
  have h3 := (Complex.mem_slitPlane_iff_arg.1 hz).1
  have h4 := lt_of_le_of_ne h2 h3
  constructor <;> linarith

theorem sq_mem_slitPlane {w : ℂ} (hw : 0 < w.re) : w ^ 2 ∈ Complex.slitPlane := by
  rw [Complex.mem_slitPlane_iff]
  by_contra h
  push Not at h
  obtain ⟨h1, h2⟩ := h
  have e1 : (w ^ 2).re = w.re ^ 2 - w.im ^ 2 := by rw [sq, Complex.mul_re]; ring
  have e2 : (w ^ 2).im = 2 * w.re * w.im := by rw [sq, Complex.mul_im]; ring
  rw [e2] at h2
  have h3 : w.im = 0 := by
    rcases mul_eq_zero.1 h2 with h | h
    · linarith
    · exact h
  rw [e1, h3] at h1
  nlinarith

theorem npCsqrt_of_sq {z w : ℂ} (hw : 0 < w.re) (h : w ^ 2 = z) : npCsqrt z = w := by
  have h1 := npCsqrt_sq z
  have h2 := npCsqrt_re_pos (h ▸ sq_mem_slitPlane hw)
  rw [← h] at h1
  rw [← h] at h2 ⊢
  rcases sq_eq_sq_iff_eq_or_eq_neg.1 h1 with e | e
  · exact e
  · rw [e, Complex.neg_re] at h2
    linarith

/-! ### the logarithm stays on its principal branch -/

theorem slit_aux {k b x y A B m : ℝ} (hk : 0 < k) (hx : 0 < x) (hy : y < x) (hy0 : 0 ≤ y)
    (hm : A ^ 2 + B ^ 2 = m ^ 2) (hm0 : 0 < m) (hm1 : m < 1) (hB : 0 < B → m < 1 / 4)
    (hre : (x ^ 2 + y ^ 2) * (1 + A) + (k * x - b * y) * (1 - A) - (k * y + b * x) * B ≤ 0)
    (him : (x ^ 2 + y ^ 2) * B - (k * y + b * x) * (1 - A) - (k * x - b * y) * B = 0) : False := by
  have hA : A < 1 := by nlinarith
  have hN : 0 < x ^ 2 + y ^ 2 := by positivity
  have key : (x ^ 2 + y ^ 2) * (1 - m ^ 2) + (k * x - b * y) * ((1 - A) ^ 2 + B ^ 2) ≤ 0 := by
    have h1 := mul_nonpos_of_nonpos_of_nonneg hre (show 0 ≤ 1 - A by linarith)
    have e : (x ^ 2 + y ^ 2) * (1 - m ^ 2) + (k * x - b * y) * ((1 - A) ^ 2 + B ^ 2) =
      ((x ^ 2 + y ^ 2) * (1 + A) + (k * x - b * y) * (1 - A) - (k * y + b * x) * B) * (1 - A) -
      ((x ^ 2 + y ^ 2) * B - (k * y + b * x) * (1 - A) - (k * x - b * y) * B) * B := by
      rw [← hm]; ring
    rw [e, him]; linarith
  have hm2 : 0 < 1 - m ^ 2 := by nlinarith
  have hS : 0 < (1 - A) ^ 2 + B ^ 2 := by
    have : 0 < 1 - A := by linarith
    positivity
  have hP : k * x - b * y < 0 := by
    by_contra h
    push Not at h
    have := mul_nonneg h hS.le
    have := mul_pos hN hm2
    linarith
  have hby : 0 < b * y := by nlinarith
  have hb : 0 < b := by
    by_contra h
    push Not at h
    have := mul_nonpos_of_nonpos_of_nonneg h hy0
    linarith
  have hy1 : 0 < y := by
    rcases hy0.eq_or_lt with h | h
    · rw [← h] at hby; simp at hby
    · exact h
  have hQ : 0 < k * y + b * x := by positivity
  have hBpos : 0 < B := by
    by_contra h
    push Not at h
    have h1 : 0 < (k * y + b * x) * (1 - A) := mul_pos hQ (by linarith)
    have h2 : ((x ^ 2 + y ^ 2) - (k * x - b * y)) * B ≤ 0 :=
      mul_nonpos_of_nonneg_of_nonpos (by linarith) h
    nlinarith
  have hm4 := hB hBpos
  have hA4 : A < 1 / 4 := by nlinarith
  have hA4' : -(1 / 4) < A := by nlinarith
  have hB4 : B < 1 / 4 := by nlinarith
  have hQP : 0 < (k * y + b * x) + (k * x - b * y) := by nlinarith [mul_pos hb (sub_pos.2 hy)]
  set P := k * x - b * y
  set Q := k * y + b * x
  set N := x ^ 2 + y ^ 2
  have h1 : -(2 * P) < N := by
    have e1 : (N - P) * B = Q * (1 - A) := by linarith
    have e2 : (N - P) * B ≤ (N - P) * (1 / 4) := by
      apply mul_le_mul_of_nonneg_left hB4.le; linarith
    have e3 : Q * (3 / 4) ≤ Q * (1 - A) := by
      apply mul_le_mul_of_nonneg_left _ hQ.le; linarith
    linarith
  have hS2 : (1 - A) ^ 2 + B ^ 2 < 26 / 16 := by nlinarith
  have hmm : m ^ 2 < 1 / 16 := by nlinarith
  have h2 : N * (15 / 16) ≤ N * (1 - m ^ 2) := by
    apply mul_le_mul_of_nonneg_left _ hN.le; linarith
  have h3 : P * (26 / 16) ≤ P * ((1 - A) ^ 2 + B ^ 2) := by
    apply mul_le_mul_of_nonpos_left hS2.le hP.le
  linarith

/-- The argument of the logarithm is never zero or negative. -/
theorem slit_heston {k b : ℝ} {d : ℂ} (hk : 0 < k) (hd : |d.im| < d.re) {t : ℝ} (ht : 0 ≤ t) :
    (1 + Complex.exp (-d * t)) / 2 + (k - b * I) / d * (1 - Complex.exp (-d * t)) / 2 ∈
      Complex.slitPlane := by
  have hx : 0 < d.re := lt_of_le_of_lt (abs_nonneg _) hd
  have hd0 : d ≠ 0 := by rintro rfl; simp at hx
  rcases ht.eq_or_lt with rfl | ht
  · simp
  set x := d.re with hxd
  set y := d.im with hyd
  set A := (Complex.exp (-d * t)).re with hA
  set B := (Complex.exp (-d * t)).im with hBd
  set m := exp (-(t * x)) with hm
  have hAv : A = m * cos (t * y) := by
    rw [hA, Complex.exp_re]
    simp only [Complex.mul_re, Complex.mul_im, Complex.neg_re, Complex.neg_im, Complex.ofReal_re,
      Complex.ofReal_im, ← hxd, ← hyd, mul_zero, sub_zero, zero_add, hm]
    rw [show -y * t = -(t * y) by ring, cos_neg]
    ring_nf
  have hBv : B = -(m * sin (t * y)) := by
    rw [hBd, Complex.exp_im]
    simp only [Complex.mul_re, Complex.mul_im, Complex.neg_re, Complex.neg_im, Complex.ofReal_re,
      Complex.ofReal_im, ← hxd, ← hyd, mul_zero, sub_zero, zero_add, hm]
    rw [show -y * t = -(t * y) by ring, sin_neg]
    ring_nf
  have hm0 : 0 < m := exp_pos _
  have hm1 : m < 1 := by rw [hm, exp_lt_one_iff]; nlinarith
  have hAB : A ^ 2 + B ^ 2 = m ^ 2 := by
    rw [hAv, hBv]
    have := sin_sq_add_cos_sq (t * y)
    linear_combination m ^ 2 * this
  have hsmall : π < t * |y| → m < 1 / 4 := by
    intro h
    have h1 : π < t * x := lt_trans h (mul_lt_mul_of_pos_left hd ht)
    have h2 : m < exp (-π) := by rw [hm, exp_lt_exp]; linarith
    have h3 : π + 1 < exp π := add_one_lt_exp pi_pos.ne'
    have h4 : exp (-π) < 1 / 4 := by
      rw [exp_neg, inv_eq_one_div]
      exact one_div_lt_one_div_of_lt (by norm_num) (by have := pi_gt_three; linarith)
    linarith
  rw [Complex.mem_slitPlane_iff]
  by_contra hc
  push Not at hc
  obtain ⟨hre, him⟩ := hc
  -- multiply by `2*|d|**2`
  have hN : 0 < x ^ 2 + y ^ 2 := by positivity
  have hw : ((1 + Complex.exp (-d * t)) / 2 + (k - b * I) / d * (1 - Complex.exp (-d * t)) / 2) *
      ((2 * (x ^ 2 + y ^ 2) : ℝ) : ℂ) =
      ((x ^ 2 + y ^ 2 : ℝ) : ℂ) * (1 + Complex.exp (-d * t)) +
      ((k * x - b * y : ℝ) - (k * y + b * x : ℝ) * I) * (1 - Complex.exp (-d * t)) := by
    have hdd : d * ((x : ℂ) - y * I) = ((x ^ 2 + y ^ 2 : ℝ) : ℂ) := by
      have : d = x + y * I := (Complex.re_add_im d).symm
      rw [this]; push_cast
      linear_combination (-(y : ℂ) ^ 2) * Complex.I_sq
    have hq : (k - b * I) / d * ((x ^ 2 + y ^ 2 : ℝ) : ℂ) =
        ((k * x - b * y : ℝ) - (k * y + b * x : ℝ) * I) := by
      rw [← hdd, div_mul_eq_mul_div, div_eq_iff hd0]
      push_cast
      linear_combination (b * y * d : ℂ) * Complex.I_sq
    rw [← hq]
    push_cast
    ring
  have hwre := congrArg Complex.re hw
  have hwim := congrArg Complex.im hw
  rw [Complex.re_mul_ofReal] at hwre
  rw [Complex.im_mul_ofReal, him, zero_mul] at hwim
  simp only [Complex.add_re, Complex.mul_re, Complex.ofReal_re, Complex.ofReal_im, Complex.sub_re,
    Complex.one_re, Complex.one_im, Complex.add_im, Complex.sub_im, Complex.mul_im, Complex.I_re,
    Complex.I_im, ← hA, ← hBd, mul_zero, mul_one, zero_mul, sub_zero, add_zero, zero_add,
    zero_sub] at hwre hwim
  have hre' : (x ^ 2 + y ^ 2) * (1 + A) + (k * x - b * y) * (1 - A) - (k * y + b * x) * B ≤ 0 := by
    have := mul_nonpos_of_nonpos_of_nonneg hre (show 0 ≤ 2 * (x ^ 2 + y ^ 2) by positivity)
    rw [Complex.add_re, hwre] at this
    linarith
  have him' : (x ^ 2 + y ^ 2) * B - (k * y + b * x) * (1 - A) - (k * x - b * y) * B = 0 := by
    linarith
  rcases le_total 0 y with hy | hy
  · refine slit_aux hk hx ((le_abs_self y).trans_lt hd) hy hAB hm0 hm1 (fun hB => ?_) hre' him'
    apply hsmall
    rw [abs_of_nonneg hy]
    by_contra h
    push Not at h
    have := sin_nonneg_of_nonneg_of_le_pi (x := t * y) (by positivity) h
    have := mul_nonneg hm0.le this
    rw [hBv] at hB
    linarith
  · refine slit_aux (k := k) (b := -b) (x := x) (y := -y) (A := A) (B := -B) (m := m) hk hx
      ((neg_le_abs y).trans_lt hd) (by linarith) (by rw [neg_sq]; exact hAB) hm0 hm1 (fun hB => ?_)
      (by linear_combination hre') (by linear_combination -him')
    apply hsmall
    rw [abs_of_nonpos hy]
    by_contra h
    push Not at h
    have h1 := sin_nonneg_of_nonneg_of_le_pi (x := t * -y) (mul_nonneg ht.le (by linarith)) h
    rw [mul_neg, sin_neg] at h1
    have := mul_nonneg hm0.le h1
    rw [hBv] at hB
    linarith

/-! ### dependence on time -/

/-- The quantities computed by `heston_log_chf`, for real `u`. -/
theorem heston_d {k s rho u : ℝ} (hk : 0 < k) (hrho : |rho| ≤ 1) :
    ∃ d : ℂ, npCsqrt ((rho * s * u * I - k) ^ 2 + s ^ 2 * u * (I + u)) = d ∧ |d.im| < d.re ∧
      d ^ 2 = (rho * s * u * I - k) ^ 2 + s ^ 2 * u * (I + u) := by
  set z : ℂ := (rho * s * u * I - k) ^ 2 + s ^ 2 * u * (I + u) with hz
  have hre : 0 < z.re := by
    have e : z = ((k ^ 2 + (1 - rho ^ 2) * s ^ 2 * u ^ 2 : ℝ) : ℂ) +
        ((s ^ 2 * u - 2 * k * rho * s * u : ℝ) : ℂ) * I := by
      rw [hz]; push_cast
      linear_combination ((rho * s * u) ^ 2 : ℂ) * Complex.I_sq
    rw [e, Complex.add_re, Complex.ofReal_re, Complex.re_ofReal_mul, Complex.I_re, mul_zero, add_zero]
    have : rho ^ 2 ≤ 1 := by rw [← sq_abs]; nlinarith [abs_nonneg rho]
    have : 0 ≤ (1 - rho ^ 2) * s ^ 2 * u ^ 2 := by
      have : 0 ≤ 1 - rho ^ 2 := by linarith
      positivity
    nlinarith
  refine ⟨npCsqrt z, rfl, ?_, npCsqrt_sq z⟩
  have h1 := npCsqrt_re_pos (Complex.mem_slitPlane_iff.2 (Or.inl hre))
  have h2 := congrArg Complex.re (npCsqrt_sq z)
  rw [sq, Complex.mul_re] at h2
  apply abs_lt_of_sq_lt_sq _ h1.le
  nlinarith

theorem hasDerivAt_cexp (d : ℂ) (t : ℝ) :
    HasDerivAt (fun t : ℝ => Complex.exp (-d * t)) (-d * Complex.exp (-d * t)) t := by
  have h : HasDerivAt (fun z : ℂ => Complex.exp (-d * z)) (Complex.exp (-d * t) * (-d * 1)) (t : ℂ) :=
    ((hasDerivAt_id (t : ℂ)).const_mul (-d)).cexp
  have := h.comp_ofReal
  refine this.congr_deriv ?_
  ring

/-- The argument of the logarithm, in a simpler form. -/
theorem heston_w {c d : ℂ} (hd : d ≠ 0) (hcd : c + d ≠ 0) (al : ℂ) :
    (1 - (c - d) / (c + d) * al) / (1 - (c - d) / (c + d)) = (1 + al) / 2 + c / d * (1 - al) / 2 := by
  have h1 : 1 - (c - d) / (c + d) = 2 * d / (c + d) := by
    rw [one_sub_div hcd]; congr 1; ring
  rw [h1]
  field_simp
  ring

theorem heston_alg1 {c d g al : ℂ} (hgm : g * (c + d) = c - d) (hE : 1 - g * al ≠ 0) :
    ((c - d) * -(-d * al) * (1 - g * al) - (c - d) * (1 - al) * -(g * (-d * al))) / (1 - g * al) ^ 2 =
      ((c - d) * (1 - al) / (1 - g * al)) ^ 2 / 2 - c * ((c - d) * (1 - al) / (1 - g * al)) +
      (c ^ 2 - d ^ 2) / 2 := by
  have hc : c = (c + d) * (1 + g) / 2 := by linear_combination -hgm / 2
  have hd : d = (c + d) * (1 - g) / 2 := by linear_combination hgm / 2
  generalize c + d = S at *
  subst hc hd
  generalize hEe : 1 - g * al = E at *
  field_simp
  rw [← hEe]
  ring

theorem heston_alg2 {c d g al : ℂ} (hgm : g * (c + d) = c - d) (hE : 1 - g * al ≠ 0)
    (hg : 1 - g ≠ 0) :
    c - d - 2 * (-(g * (-d * al)) / (1 - g) / ((1 - g * al) / (1 - g))) =
      (c - d) * (1 - al) / (1 - g * al) := by
  have hc : c = (c + d) * (1 + g) / 2 := by linear_combination -hgm / 2
  have hd : d = (c + d) * (1 - g) / 2 := by linear_combination hgm / 2
  rw [div_div_div_cancel_right₀ hg]
  generalize c + d = S at *
  subst hc hd
  generalize hEe : 1 - g * al = E at *
  field_simp
  rw [← hEe]
  ring

/-- Derivatives with respect to time of the coefficients in the exponent of `heston_log_chf`. -/
theorem heston_coefs {c d : ℂ} (hd : d ≠ 0) (hcd : c + d ≠ 0) (t : ℝ)
    (hw : (1 + Complex.exp (-d * t)) / 2 + c / d * (1 - Complex.exp (-d * t)) / 2 ∈ Complex.slitPlane) :
    let g := (c - d) / (c + d)
    let D : ℝ → ℂ := fun t => (c - d) * (1 - Complex.exp (-d * t)) / (1 - g * Complex.exp (-d * t))
    HasDerivAt D (D t ^ 2 / 2 - c * D t + (c ^ 2 - d ^ 2) / 2) t ∧
    HasDerivAt (fun t : ℝ => (c - d) * t -
      2 * Complex.log ((1 - g * Complex.exp (-d * t)) / (1 - g))) (D t) t := by
  intro g D
  have hg1 : 1 - g = 2 * d / (c + d) := by
    simp only [g]; rw [one_sub_div hcd]; congr 1; ring
  have hg0 : 1 - g ≠ 0 := by rw [hg1]; exact div_ne_zero (mul_ne_zero two_ne_zero hd) hcd
  have hweq := heston_w hd hcd (Complex.exp (-d * t))
  rw [← hweq] at hw
  have hE : 1 - g * Complex.exp (-d * t) ≠ 0 := by
    intro h
    have := Complex.slitPlane_ne_zero hw
    apply this
    simp only [g] at h
    rw [h, zero_div]
  have hα := hasDerivAt_cexp d t
  have hnum := (hα.const_sub 1).const_mul (c - d)
  have hden := (hα.const_mul g).const_sub 1
  have hgm : g * (c + d) = c - d := by simp only [g]; field_simp
  constructor
  · refine (hnum.div hden hE).congr_deriv ?_
    exact heston_alg1 hgm hE
  · have hquot := hden.div_const (1 - g)
    have hlog := hquot.clog_real hw
    have h1 : HasDerivAt (fun t : ℝ => (c - d) * (t : ℂ)) (c - d) t := by
      have := (Complex.ofRealCLM.hasDerivAt (x := t)).const_mul (c - d)
      simpa using this
    refine (h1.sub (hlog.const_mul 2)).congr_deriv ?_
    exact heston_alg2 hgm hE hg0

/-- `heston_log_chf` is the exponential of an affine function of the logarithm of `x0` and of `y0`. -/
theorem heston_affine {k xi rho : ℝ} (hk : 0 < k) (hrho : |rho| ≤ 1) (mu sigma theta u : ℝ) :
    ∃ d : ℂ, ∃ C D : ℝ → ℂ,
      (∀ t l y : ℝ, hestonLogChf (exp l) mu sigma y theta k xi rho t u =
        Complex.exp (I * u * (l + mu * t) + theta * k / (xi * xi) * C t + y / (xi * xi) * D t)) ∧
      C 0 = 0 ∧ D 0 = 0 ∧
      d ^ 2 = (k - rho * sigma * xi * u * I) ^ 2 + sigma ^ 2 * xi ^ 2 * u * (I + u) ∧
      ∀ t, 0 ≤ t → HasDerivAt C (D t) t ∧ HasDerivAt D (D t ^ 2 / 2 -
        (k - rho * sigma * xi * u * I) * D t + ((k - rho * sigma * xi * u * I) ^ 2 - d ^ 2) / 2) t := by
  obtain ⟨d, hd, him, hsq⟩ := heston_d (s := sigma * xi) (u := u) hk hrho
  have hx : 0 < d.re := lt_of_le_of_lt (abs_nonneg _) him
  have hd0 : d ≠ 0 := by rintro rfl; simp at hx
  set c : ℂ := k - rho * sigma * xi * u * I with hc
  have hcre : c.re = k := by
    have : c = k - ((rho * sigma * xi * u : ℝ) : ℂ) * I := by rw [hc]; push_cast; ring
    rw [this, Complex.sub_re, Complex.re_ofReal_mul, Complex.I_re, Complex.ofReal_re]; ring
  have hcd : c + d ≠ 0 := by
    intro h
    have := congrArg Complex.re h
    rw [Complex.add_re, hcre, Complex.zero_re] at this
    linarith
  have hd' : npCsqrt ((rho * sigma * xi * u * I - k) ^ 2 + (sigma * xi) ^ 2 * u * (I + u)) = d := by
    rw [← hd]; congr 1; push_cast; ring
  have hg0 : 1 - (c - d) / (c + d) ≠ 0 := by
    have : 1 - (c - d) / (c + d) = 2 * d / (c + d) := by
      rw [one_sub_div hcd]; congr 1; ring
    rw [this]
    exact div_ne_zero (mul_ne_zero two_ne_zero hd0) hcd
  refine ⟨d, fun t => (c - d) * t - 2 * Complex.log ((1 - (c - d) / (c + d) *
    Complex.exp (-d * t)) / (1 - (c - d) / (c + d))), fun t => (c - d) * (1 - Complex.exp (-d * t)) /
    (1 - (c - d) / (c + d) * Complex.exp (-d * t)), fun t l y => ?_, ?_, ?_, ?_, fun t ht => ?_⟩
  · unfold hestonLogChf
    simp only
    rw [hd', log_exp, ← hc]
    congr 1
    ring
  · simp [hg0]
  · simp
  · rw [hsq, hc]; push_cast; ring
  · have hw := slit_heston (b := rho * sigma * xi * u) hk him ht
    have hcc : ((k : ℂ) - ((rho * sigma * xi * u : ℝ) : ℂ) * I) = c := by rw [hc]; push_cast; ring
    rw [hcc] at hw
    obtain ⟨h1, h2⟩ := heston_coefs hd0 hcd t hw
    exact ⟨h2, h1⟩

theorem hasDerivAt_cexp_affine (a b : ℂ) (v : ℂ) (x : ℝ) :
    HasDerivAt (fun x : ℝ => v * Complex.exp (a + x * b)) (b * v * Complex.exp (a + x * b)) x := by
  have h : HasDerivAt (fun z : ℂ => v * Complex.exp (a + z * b))
      (v * (Complex.exp (a + x * b) * (1 * b))) (x : ℂ) :=
    ((((hasDerivAt_id (x : ℂ)).mul_const b).const_add a).cexp).const_mul v
  refine h.comp_ofReal.congr_deriv ?_
  ring

/-- `heston_log_chf`, for real `u`, is the solution to the backward equation that, initially, is
`exp(1j*u*log(x0))`. -/
theorem C54_heston {k xi rho : ℝ} (hk : 0 < k) (hxi : xi ≠ 0) (hrho : |rho| ≤ 1)
    (mu sigma theta u : ℝ) :
    (∀ l y : ℝ, hestonLogChf (exp l) mu sigma y theta k xi rho 0 u = Complex.exp (I * u * l)) ∧
    ∀ t, 0 ≤ t → ∀ l y, HestonBackward mu sigma theta k xi rho
      (fun t l y => hestonLogChf (exp l) mu sigma y theta k xi rho t u) t l y := by
  obtain ⟨d, C, D, hf, hC, hD, hd, hder⟩ := heston_affine (xi := xi) hk hrho mu sigma theta u
  have hxi' : (xi : ℂ) ≠ 0 := by exact_mod_cast hxi
  refine ⟨fun l y => by rw [hf, hC, hD]; simp, fun t ht l y => ⟨?_⟩⟩
  obtain ⟨h1, h2⟩ := hder t ht
  set P : ℂ := I * u with hP
  set Q : ℂ := D t / (xi * xi) with hQ
  have hval : ∀ l y : ℝ, hestonLogChf (exp l) mu sigma y theta k xi rho t u =
      Complex.exp ((I * u * mu * t + theta * k / (xi * xi) * C t) + l * P + y * Q) := by
    intro l y; rw [hf, hP, hQ]; congr 1; ring
  set z : ℂ := I * u * mu * t + theta * k / (xi * xi) * C t with hz
  have hl : ∀ (v : ℂ) (l y : ℝ), HasDerivAt (fun l' : ℝ => v * Complex.exp (z + l' * P + y * Q))
      (P * v * Complex.exp (z + l * P + y * Q)) l := by
    intro v l y
    have := hasDerivAt_cexp_affine (z + y * Q) P v l
    have e : ∀ l : ℝ, z + y * Q + l * P = z + l * P + y * Q := fun l => by ring
    simp only [e] at this
    exact this
  have hy : ∀ (v : ℂ) (l y : ℝ), HasDerivAt (fun y' : ℝ => v * Complex.exp (z + l * P + y' * Q))
      (Q * v * Complex.exp (z + l * P + y * Q)) y := by
    intro v l y
    exact hasDerivAt_cexp_affine (z + l * P) Q v y
  simp only [hval]
  refine ⟨(I * u * mu + theta * k / (xi * xi) * D t + y / (xi * xi) * (D t ^ 2 / 2 -
      (k - rho * sigma * xi * u * I) * D t + ((k - rho * sigma * xi * u * I) ^ 2 - d ^ 2) / 2)) *
      Complex.exp (z + l * P + y * Q),
    fun l y => P * 1 * Complex.exp (z + l * P + y * Q),
    fun l y => Q * 1 * Complex.exp (z + l * P + y * Q),
    fun l y => P * (P * 1) * Complex.exp (z + l * P + y * Q),
    fun l y => Q * (P * 1) * Complex.exp (z + l * P + y * Q),
    fun l y => Q * (Q * 1) * Complex.exp (z + l * P + y * Q), ?_, fun l y => ?_, fun l y => ?_,
    fun l y => hl _ l y, fun l y => hy _ l y, fun l y => hy _ l y, ?_⟩
  · have ht1 : HasDerivAt (fun t : ℝ => I * u * (l + mu * t)) (I * u * (mu * 1)) t := by
      have h0 : HasDerivAt (fun t : ℝ => (t : ℂ)) 1 t := Complex.ofRealCLM.hasDerivAt
      exact ((h0.const_mul (mu : ℂ)).const_add (l : ℂ)).const_mul (I * u)
    have := ((ht1.add (h1.const_mul (theta * k / (xi * xi) : ℂ))).add
      (h2.const_mul (y / (xi * xi) : ℂ))).cexp
    have hfun : (fun t' : ℝ => hestonLogChf (exp l) mu sigma y theta k xi rho t' u) = fun t' : ℝ =>
        Complex.exp (I * u * (l + mu * t') + theta * k / (xi * xi) * C t' + y / (xi * xi) * D t') :=
      funext fun t' => hf t' l y
    rw [hfun]
    refine this.congr_deriv ?_
    have e : I * u * (l + mu * t) + theta * k / (xi * xi) * C t + y / (xi * xi) * D t =
        z + l * P + y * Q := by
      rw [hz, hP, hQ]; ring
    simp only [Pi.add_apply]
    rw [e]
    ring
  · have := hl 1 l y
    simpa using this
  · have := hy 1 l y
    simpa using this
  · simp only
    rw [hd, hP, hQ]
    have hI : (I * u) * (I * u * 1) = -(u ^ 2 : ℂ) := by
      linear_combination (u ^ 2 : ℂ) * Complex.I_sq
    rw [hI]
    generalize Complex.exp (z + l * (I * u) + y * (D t / (xi * xi))) = E
    field_simp
    ring

/-- `heston_log_chf` is one at zero. -/
theorem C54_heston_zero {k : ℝ} (hk : 0 < k) (x0 mu sigma y0 theta xi rho t : ℝ) :
    hestonLogChf x0 mu sigma y0 theta k xi rho t 0 = 1 := by
  have h : npCsqrt ((k : ℂ) ^ 2) = k := npCsqrt_of_sq (by simpa using hk) rfl
  unfold hestonLogChf
  simp [h]

/-- `heston_log_chf` at `-1j` is the mean of the process, `x0*exp(mu*t)`. -/
theorem C54_heston_mean {x0 k sigma xi rho : ℝ} (hx : 0 < x0) (h : rho * sigma * xi < k)
    (mu y0 theta t : ℝ) :
    hestonLogChf x0 mu sigma y0 theta k xi rho t (-I) = x0 * exp (mu * t) := by
  have e1 : (rho : ℂ) * sigma * xi * -I * I = ((rho * sigma * xi : ℝ) : ℂ) := by
    push_cast
    linear_combination (-(rho * sigma * xi) : ℂ) * Complex.I_sq
  have h2 : npCsqrt ((rho * sigma * xi * -I * I - k) ^ 2 + (sigma * xi) ^ 2 * -I * (I + -I)) =
      ((k - rho * sigma * xi : ℝ) : ℂ) := by
    apply npCsqrt_of_sq
    · rw [Complex.ofReal_re]; linarith
    · rw [e1]; push_cast; ring
  unfold hestonLogChf
  simp only
  rw [h2, e1]
  have h3 : (k : ℂ) - ((rho * sigma * xi : ℝ) : ℂ) - ((k - rho * sigma * xi : ℝ) : ℂ) = 0 := by
    push_cast; ring
  rw [h3]
  have h4 : I * -I = 1 := by rw [mul_neg, Complex.I_mul_I, neg_neg]
  have h5 : (x0 : ℂ) = Complex.exp ((log x0 : ℝ) : ℂ) := by
    rw [← Complex.ofReal_exp, exp_log hx]
  rw [h4, zero_div]
  simp
  rw [Complex.exp_add]
  conv_rhs => rw [h5]

theorem hasDerivAt_npCsqrt {k : ℝ} (hk : 0 < k) :
    HasDerivAt npCsqrt (1 / (2 * k) : ℂ) ((k : ℂ) ^ 2) := by
  have hs : (k : ℂ) ^ 2 ∈ Complex.slitPlane := sq_mem_slitPlane (by simpa using hk)
  have h := (hasDerivAt_id ((k : ℂ) ^ 2)).cpow_const (c := (1 / 2 : ℂ)) hs
  refine h.congr_deriv ?_
  have h1 : npCsqrt ((k : ℂ) ^ 2) = k := npCsqrt_of_sq (by simpa using hk) rfl
  have h2 : (1 / 2 - 1 : ℂ) = -(1 / 2) := by norm_num
  simp only [id]
  rw [h2, Complex.cpow_neg]
  unfold npCsqrt at h1
  rw [h1]
  have : (k : ℂ) ≠ 0 := by exact_mod_cast hk.ne'
  field_simp

/-- The derivative of `heston_log_chf` at zero agrees with `heston_log_mean`. -/
theorem C54_heston_log_mean {k xi : ℝ} (hk : 0 < k) (hxi : xi ≠ 0) (x0 mu sigma y0 theta rho t : ℝ) :
    HasDerivAt (fun u : ℂ => hestonLogChf x0 mu sigma y0 theta k xi rho t u)
      (I * (hestonLogMean x0 mu sigma y0 theta k xi rho t : ℝ)) 0 := by
  have hk' : (k : ℂ) ≠ 0 := by exact_mod_cast hk.ne'
  have hxi' : (xi : ℂ) ≠ 0 := by exact_mod_cast hxi
  set s : ℂ := sigma * xi with hs
  -- argument of the square root
  have hz : HasDerivAt (fun u : ℂ => (rho * sigma * xi * u * I - k) ^ 2 + (sigma * xi) ^ 2 * u * (I + u))
      (-2 * k * (rho * s * I) + s ^ 2 * I) 0 := by
    have h1 := ((((hasDerivAt_id (0 : ℂ)).const_mul (rho * sigma * xi : ℂ)).mul_const I).sub_const
      (k : ℂ)).pow 2
    have h2 := ((hasDerivAt_id (0 : ℂ)).const_mul ((sigma * xi : ℂ) ^ 2)).mul
      ((hasDerivAt_id (0 : ℂ)).const_add I)
    refine (h1.add h2).congr_deriv ?_
    simp only [id, hs]
    push_cast
    ring
  have hz0 : ((rho : ℂ) * sigma * xi * 0 * I - k) ^ 2 + (sigma * xi) ^ 2 * 0 * (I + 0) = (k : ℂ) ^ 2 := by
    ring
  have hsq : npCsqrt ((k : ℂ) ^ 2) = k := npCsqrt_of_sq (by simpa using hk) rfl
  have hdz := hasDerivAt_npCsqrt hk
  rw [← hz0] at hdz
  have hd : HasDerivAt (fun u : ℂ => npCsqrt ((rho * sigma * xi * u * I - k) ^ 2 +
      (sigma * xi) ^ 2 * u * (I + u))) (1 / (2 * k) * (-2 * k * (rho * s * I) + s ^ 2 * I)) 0 :=
    HasDerivAt.comp (h₂ := npCsqrt) (h := fun u : ℂ => (rho * sigma * xi * u * I - k) ^ 2 +
      (sigma * xi) ^ 2 * u * (I + u)) (0 : ℂ) hdz hz
  set dd : ℂ → ℂ := fun u => npCsqrt ((rho * sigma * xi * u * I - k) ^ 2 +
      (sigma * xi) ^ 2 * u * (I + u)) with hdd
  have hd0 : dd 0 = k := by rw [hdd]; simp only; rw [hz0, hsq]
  set d1 : ℂ := 1 / (2 * k) * (-2 * k * (rho * s * I) + s ^ 2 * I) with hd1
  have hlin : HasDerivAt (fun u : ℂ => k - rho * sigma * xi * u * I) (-(rho * s * I)) 0 := by
    have := (((hasDerivAt_id (0 : ℂ)).const_mul (rho * sigma * xi : ℂ)).mul_const I).const_sub (k : ℂ)
    refine this.congr_deriv ?_
    simp [hs]; ring
  have hap := hlin.sub hd
  have ham := hlin.add hd
  have ham0 : (fun u : ℂ => k - rho * sigma * xi * u * I + dd u) 0 ≠ 0 := by
    simp only [hd0]
    rw [show (k : ℂ) - rho * sigma * xi * 0 * I + k = 2 * k by ring]
    exact mul_ne_zero two_ne_zero hk'
  have hg := hap.div ham ham0
  have hal := ((hd.neg).mul_const (t : ℂ)).cexp
  set al : ℂ := Complex.exp (-(k : ℂ) * t) with hal0
  have hone := ((hg.mul hal).const_sub 1).div (hg.const_sub 1) (by simp [hd0])
  have hlog := hone.clog (by simp [hd0])
  have hA1 := (hasDerivAt_id (0 : ℂ)).const_mul I |>.mul_const ((log x0 : ℝ) + mu * t : ℂ)
  have hA2 := ((hap.mul_const (t : ℂ)).sub (hlog.const_mul 2)).const_mul (theta * k / (xi * xi) : ℂ)
  have hA3 := ((hap.const_mul (y0 / (xi * xi) : ℂ)).mul (hal.const_sub 1)).div
    ((hg.mul hal).const_sub 1) (by simp [hd0])
  have hfin := ((hA1.add hA2).add hA3).cexp
  refine hfin.congr_deriv ?_
  simp only [Pi.add_apply, Pi.sub_apply, Pi.mul_apply, Pi.div_apply, Pi.neg_apply, id, hd0, mul_zero,
    zero_mul, sub_zero, sub_self, zero_div, add_zero, div_one, Complex.log_one, Complex.exp_zero,
    one_mul, mul_one, ← hal0, zero_add, one_pow, neg_zero]
  unfold hestonLogMean
  simp only
  push_cast
  rw [← hal0, hd1, hs]
  field_simp
  ring

/-! ### cases meeting the hypotheses -/

example := C54_heston (k := 1) (xi := 2) (rho := 1 / 2) (by norm_num) (by norm_num)
  (by rw [abs_of_pos] <;> norm_num) (1 / 10) 3 1 5

example := C54_heston_mean (x0 := 2) (k := 2) (sigma := 1) (xi := 2) (rho := 1 / 2) (by norm_num)
  (by norm_num) (1 / 10) 1 1 3

example := C54_heston_log_mean (k := 2) (xi := 2) (by norm_num) (by norm_num) 3 (1 / 10) 1 1 1 (1 / 2) 3

end Sdepy
