import Verif.Model.FloatAnalytical
import Verif.Props.Moments
import Verif.Props.CirConv
import Mathlib.Analysis.SpecialFunctions.Integrals.Basic
import Mathlib.MeasureTheory.Integral.DominatedConvergence
import Mathlib.Probability.Distributions.Gamma
import Mathlib.Analysis.Normed.Group.Tannery

/-!
# C81: analytical statistics at parameters where their formulas divide zero by zero

The processes are defined for all values of their parameters, `k = 0` included, and so are their moments.
-/

namespace Sdepy
namespace Spec
end Spec
open Spec Real Filter Topology MeasureTheory Set ProbabilityTheory
open scoped BoundedContinuousFunction Nat

/-! ### specification, lemmas -/

/-- `∫ exp(-c*s) ds` from `0` to `t`. -/
noncomputable def Spec.expInt (c t : ℝ) : ℝ := ∫ s in (0 : ℝ)..t, exp (-c * s)

theorem expInt_zero (t : ℝ) : expInt 0 t = t := by simp [expInt]

theorem expInt_mul (c t : ℝ) : c * expInt c t = 1 - exp (-c * t) := by
  unfold expInt
  rw [← intervalIntegral.integral_const_mul]
  have h : ∀ s ∈ uIcc 0 t, HasDerivAt (fun s : ℝ => -exp (-c * s)) (c * exp (-c * s)) s := fun s _ => by
    refine (hasDerivAt_exp_mul (-c) s).neg.congr_deriv ?_; ring
  rw [intervalIntegral.integral_eq_sub_of_hasDerivAt h (by apply Continuous.intervalIntegrable; fun_prop)]
  simp; ring

theorem expInt_eq {c : ℝ} (hc : c ≠ 0) (t : ℝ) : expInt c t = (1 - exp (-c * t)) / c := by
  rw [← expInt_mul, mul_div_cancel_left₀ _ hc]

theorem expInt_deriv (c t : ℝ) : HasDerivAt (expInt c) (exp (-c * t)) t :=
  intervalIntegral.integral_hasDerivAt_right (by apply Continuous.intervalIntegrable; fun_prop)
    (by apply Continuous.stronglyMeasurableAtFilter; fun_prop) (by fun_prop)

theorem expInt_cont (t : ℝ) : Continuous fun c => expInt c t :=
  intervalIntegral.continuous_parametric_intervalIntegral_of_continuous' (f := fun c s => exp (-c * s))
    (by fun_prop) 0 t

/-- Third order expansion of the exponential at zero, with the limit of its remainder. -/
theorem exp_rem3 (a : ℝ) : ∃ e : ℝ → ℝ, Tendsto e (𝓝[≠] 0) (𝓝 (a ^ 3 / 6)) ∧
    ∀ k ≠ 0, exp (a * k) = 1 + a * k + a ^ 2 * k ^ 2 / 2 + k ^ 3 * e k := by
  refine ⟨fun k => (exp (a * k) - 1 - a * k - a ^ 2 * k ^ 2 / 2) / k ^ 3, ?_, fun k hk => ?_⟩
  · rw [tendsto_iff_norm_sub_tendsto_zero]
    have hev : ∀ᶠ k : ℝ in 𝓝[≠] 0, |a * k| ≤ 1 := by
      have : Tendsto (fun k : ℝ => |a * k|) (𝓝 0) (𝓝 0) := by
        have : Continuous fun k : ℝ => |a * k| := by fun_prop
        simpa using this.tendsto 0
      exact (this.eventually (eventually_le_nhds one_pos)).filter_mono nhdsWithin_le_nhds
    have hlim : Tendsto (fun k : ℝ => |a| ^ 4 * |k| * (5 / (24 * 4))) (𝓝[≠] 0) (𝓝 0) := by
      have : Continuous fun k : ℝ => |a| ^ 4 * |k| * (5 / (24 * 4)) := by fun_prop
      have := this.tendsto 0
      simp only [abs_zero, mul_zero, zero_mul] at this
      exact this.mono_left nhdsWithin_le_nhds
    refine tendsto_of_tendsto_of_tendsto_of_le_of_le' tendsto_const_nhds hlim (.of_forall fun _ => norm_nonneg _) ?_
    filter_upwards [hev, self_mem_nhdsWithin] with k h1 hk
    have hk : k ≠ 0 := hk
    have h := Real.exp_bound h1 (n := 4) (by norm_num)
    simp only [Finset.sum_range_succ, Finset.sum_range_zero, Nat.factorial] at h
    norm_num at h
    have e : (exp (a * k) - 1 - a * k - a ^ 2 * k ^ 2 / 2) / k ^ 3 - a ^ 3 / 6 =
        (exp (a * k) - (1 + a * k + (a * k) ^ 2 / 2 + (a * k) ^ 3 / 6)) / k ^ 3 := by
      field_simp; ring
    rw [e, Real.norm_eq_abs, abs_div, div_le_iff₀ (by positivity)]
    refine h.trans (le_of_eq ?_)
    rw [abs_pow, mul_pow]
    ring
  · field_simp; ring

/-! ### finite values -/

theorem oruhVarFl_fin (x0 theta sigma t : ℝ) {k : ℝ} (hk : k ≠ 0) :
    oruhVarFl x0 theta k sigma t = Fl.fin (oruhVar x0 theta k sigma t) := by
  simp [oruhVarFl, oruhVar, Fl.div_fin _ (mul_ne_zero two_ne_zero hk)]

theorem hw2fVarFl_fin (x1 x2 theta1 theta2 s1 s2 rho t : ℝ) {k1 k2 : ℝ} (h1 : k1 ≠ 0) (h2 : k2 ≠ 0)
    (h : k1 + k2 ≠ 0) :
    hw2fVarFl x1 x2 theta1 theta2 k1 k2 s1 s2 rho t = Fl.fin (hw2fVar x1 x2 theta1 theta2 k1 k2 s1 s2 rho t) := by
  simp [hw2fVarFl, hw2fVar, Fl.div_fin _ (mul_ne_zero two_ne_zero h1), Fl.div_fin _ (mul_ne_zero two_ne_zero h2),
    Fl.div_fin _ h]

theorem cirVarFl_fin (x0 theta xi t : ℝ) {k : ℝ} (hk : k ≠ 0) :
    cirVarFl x0 theta k xi t = Fl.fin (cirVar x0 theta k xi t) := by
  simp [cirVarFl, cirVar, Fl.div_fin _ hk, Fl.div_fin _ (two_ne_zero (α := ℝ))]

theorem hestonLogMeanFl_fin (mu sigma y0 theta xi rho t : ℝ) {x0 k : ℝ} (hx : 0 < x0) (hk : k ≠ 0) :
    hestonLogMeanFl x0 mu sigma y0 theta k xi rho t = Fl.fin (hestonLogMean x0 mu sigma y0 theta k xi rho t) := by
  simp [hestonLogMeanFl, hestonLogMean, Fl.div_fin _ (mul_ne_zero two_ne_zero hk), Fl.log_fin hx,
    Fl.div_fin _ (two_ne_zero (α := ℝ))]

theorem hestonLogVarFl_fin (x0 mu sigma y0 theta xi rho t : ℝ) {k : ℝ} (hk : k ≠ 0) :
    hestonLogVarFl x0 mu sigma y0 theta k xi rho t = Fl.fin (hestonLogVar x0 mu sigma y0 theta k xi rho t) := by
  simp [hestonLogVarFl, hestonLogVar, Fl.div_fin _ (mul_ne_zero four_ne_zero (pow_ne_zero 3 hk)),
    Fl.div_fin _ (two_ne_zero (α := ℝ))]

theorem cirPdfFl_fin {x0 theta k xi t x : ℝ} (hx0 : 0 < x0) (hkt : 0 < k * theta) (hxi : xi ≠ 0) (ht : 0 < t)
    (hx : 0 < x) : ∃ p, cirPdf x0 theta k xi t x = some p ∧ cirPdfFl x0 theta k xi t x = Fl.fin p := by
  have hk : k ≠ 0 := by rintro rfl; simp at hkt
  have hc : 0 < 2 * k / (1 - exp (-k * t)) / (xi * xi) := by
    rw [cirC_eq hxi]; exact one_div_pos.2 (cirH_pos hk hxi ht)
  have hal : 1 - exp (-k * t) ≠ 0 := by
    intro h
    have : exp (-k * t) = 1 := by linarith
    rw [exp_eq_one_iff] at this
    rcases mul_eq_zero.1 this with h | h
    · exact hk (neg_eq_zero.1 h)
    · exact ht.ne' h
  have hxi2 : 0 < xi * xi := mul_self_pos.2 hxi
  have hq : -1 < 2 * k * theta / (xi * xi) - 1 := by
    have : 0 < 2 * k * theta / (xi * xi) := div_pos (by nlinarith) hxi2
    linarith
  have hy : 0 < x0 * exp (-k * t) := by positivity
  have hz : 0 < 2 * (2 * k / (1 - exp (-k * t)) / (xi * xi)) * √(x * x0 * exp (-k * t)) := by positivity
  have hd : 0 < x / (x0 * exp (-k * t)) := by positivity
  refine ⟨_, by unfold cirPdf; simp only; rw [if_neg (by rintro (h | h) <;> linarith)], ?_⟩
  simp only [cirPdfFl, Fl.ofNat_1, Fl.ofNat_2, Fl.mul_fin, Fl.neg_fin, Fl.exp_fin, Fl.sub_fin, Fl.add_fin,
    Fl.div_fin _ hal, Fl.div_fin _ hxi2.ne', Fl.div_fin _ hy.ne',
    Fl.sqrt_fin (by positivity : 0 ≤ x * x0 * exp (-k * t))]
  simp only [Fl.rpow, ivFl, if_neg (not_lt.2 hd.le), if_neg hd.ne', if_neg hz.ne']
  rw [if_neg (by rintro (h | h) <;> linarith)]
  rfl

theorem heston_limit (x0 mu sigma y0 theta xi rho t : ℝ) :
    Tendsto (fun k => hestonLogVar x0 mu sigma y0 theta k xi rho t) (𝓝[≠] 0)
      (𝓝 (sigma ^ 2 * y0 * t - rho * sigma ^ 3 * xi * y0 * t ^ 2 / 2 + sigma ^ 4 * xi ^ 2 * y0 * t ^ 3 / 12)) := by
  obtain ⟨e, he, h1⟩ := exp_rem3 (-t)
  obtain ⟨f, hf, h2⟩ := exp_rem3 (-(2 * t))
  have hk : Tendsto (fun k : ℝ => k) (𝓝[≠] 0) (𝓝 0) := tendsto_id.mono_left nhdsWithin_le_nhds
  have key : ∀ k ≠ 0, hestonLogVar x0 mu sigma y0 theta k xi rho t = sigma ^ 2 * (theta *
      ((sigma * xi) ^ 2 * (f k + 2 * t ^ 3 + 4 * e k * (1 + k * t)) -
        8 * rho * k * (sigma * xi) * (2 * e k + t ^ 3 / 2 + k * t * e k) + 8 * k * (t ^ 2 / 2 + k * e k)) / 2 +
      y0 * (-(sigma * xi) ^ 2 * (f k + t ^ 3 + 2 * k * t * e k) +
        4 * rho * (sigma * xi) * (-t ^ 2 / 2 + k * (t ^ 3 / 2 + e k * (1 + k * t))) +
        4 * (t - k * t ^ 2 / 2 - k ^ 2 * e k))) / 4 := by
    intro k hk
    have a1 := h1 k hk
    have a2 := h2 k hk
    rw [show -t * k = -k * t by ring] at a1
    rw [show -(2 * t) * k = -k * t + -k * t by ring, exp_add] at a2
    simp only [hestonLogVar]
    have a3 : (exp (-k * t) * sigma * xi) ^ 2 =
        (1 + (-k * t + -k * t) + (-(2 * t)) ^ 2 * k ^ 2 / 2 + k ^ 3 * f k) * sigma ^ 2 * xi ^ 2 := by
      rw [← a2]; ring
    rw [a3, a1]
    field_simp
    ring
  have hlim := ((((((hf.add_const (2 * t ^ 3)).add ((he.const_mul 4).mul ((hk.mul_const t).const_add 1))).const_mul
      ((sigma * xi) ^ 2)).sub (((hk.const_mul (8 * rho)).mul_const (sigma * xi)).mul
      (((he.const_mul 2).add_const (t ^ 3 / 2)).add ((hk.mul_const t).mul he)))).add
      ((hk.const_mul 8).mul ((hk.mul he).const_add (t ^ 2 / 2)))).const_mul theta).div_const 2 |>.add
    (((((hf.add_const (t ^ 3)).add (((hk.const_mul 2).mul_const t).mul he)).const_mul (-(sigma * xi) ^ 2)).add
      (((hk.mul ((he.mul ((hk.mul_const t).const_add 1)).const_add (t ^ 3 / 2))).const_add (-t ^ 2 / 2)).const_mul
        (4 * rho * (sigma * xi)))).add
      ((((((hk.mul_const (t ^ 2)).div_const 2).const_sub t).sub ((hk.pow 2).mul he)).const_mul 4)) |>.const_mul y0)
    |>.const_mul (sigma ^ 2) |>.div_const 4
  have hlim' := hlim.congr' (f₂ := fun k => hestonLogVar x0 mu sigma y0 theta k xi rho t) (by
    filter_upwards [self_mem_nhdsWithin] with k hk
    exact (key k hk).symm)
  convert hlim' using 2
  ring

/-! ### theorems -/

/-- **C81** (partial: where no formula divides by zero). Variances, standard deviations and means are numbers, the
ones of C53 and of the other properties on these functions, if `k` is not zero, and for two factors if neither
`k1`, nor `k2`, nor `k1 + k2` is. -/
theorem C81_finite_partial (x0 theta sigma xi mu y0 rho : ℝ) {k t : ℝ} (hk : k ≠ 0) (ht : 0 ≤ t) :
    oruhVarFl x0 theta k sigma t = Fl.fin (oruhVar x0 theta k sigma t) ∧
    oruhSdFl x0 theta k sigma t = Fl.fin (oruhSd x0 theta k sigma t) ∧
    cirVarFl x0 theta k xi t = Fl.fin (cirVar x0 theta k xi t) ∧
    (0 ≤ x0 → 0 ≤ k * theta → cirSdFl x0 theta k xi t = Fl.fin (cirSd x0 theta k xi t)) ∧
    (0 < x0 → hestonLogMeanFl x0 mu sigma y0 theta k xi rho t =
      Fl.fin (hestonLogMean x0 mu sigma y0 theta k xi rho t)) ∧
    hestonLogVarFl x0 mu sigma y0 theta k xi rho t = Fl.fin (hestonLogVar x0 mu sigma y0 theta k xi rho t) ∧
    (0 ≤ y0 → 0 ≤ k * theta → |rho| ≤ 1 → hestonLogSdFl x0 mu sigma y0 theta k xi rho t =
      Fl.fin (hestonLogSd x0 mu sigma y0 theta k xi rho t)) := by
  obtain ⟨-, -, -, h1⟩ := C53_oruh x0 theta sigma hk
  obtain ⟨-, -, -, h2⟩ := C53_cir x0 theta xi hk
  refine ⟨oruhVarFl_fin _ _ _ _ hk, ?_, cirVarFl_fin _ _ _ _ hk, fun a b => ?_,
    fun h => hestonLogMeanFl_fin _ _ _ _ _ _ _ h hk, hestonLogVarFl_fin _ _ _ _ _ _ _ _ hk, fun a b c => ?_⟩
  · rw [oruhSdFl, oruhVarFl_fin _ _ _ _ hk, Fl.sqrt_fin (h1 t ht)]; rfl
  · rw [cirSdFl, cirVarFl_fin _ _ _ _ hk, Fl.sqrt_fin (h2 a b t ht)]; rfl
  · rw [hestonLogSdFl, hestonLogVarFl_fin _ _ _ _ _ _ _ _ hk,
      Fl.sqrt_fin (C53_heston_nonneg x0 mu sigma xi hk a b c ht)]; rfl

/-- **C81** (partial, two factors). -/
theorem C81_hw2f_partial (x1 x2 theta1 theta2 s1 s2 : ℝ) {k1 k2 rho t : ℝ} (h1 : k1 ≠ 0) (h2 : k2 ≠ 0)
    (h : k1 + k2 ≠ 0) (hr : |rho| ≤ 1) (ht : 0 ≤ t) :
    hw2fVarFl x1 x2 theta1 theta2 k1 k2 s1 s2 rho t = Fl.fin (hw2fVar x1 x2 theta1 theta2 k1 k2 s1 s2 rho t) ∧
    hw2fSdFl x1 x2 theta1 theta2 k1 k2 s1 s2 rho t = Fl.fin (hw2fSd x1 x2 theta1 theta2 k1 k2 s1 s2 rho t) := by
  have e := hw2fVarFl_fin x1 x2 theta1 theta2 s1 s2 rho t h1 h2 h
  refine ⟨e, ?_⟩
  rw [hw2fSdFl, e, Fl.sqrt_fin ((C53_hw2f x1 x2 theta1 theta2 s1 s2 rho h1 h2 h).2 hr t ht)]; rfl

/-- **C81** (partial, densities). -/
theorem C81_pdf_partial (x0 theta sigma : ℝ) {k t x : ℝ} (hk : k ≠ 0) (ht : 0 < t) (hs : sigma ≠ 0) :
    (∃ p, oruhPdf x0 theta k sigma t x = some p ∧ oruhPdfFl x0 theta k sigma t x = Fl.fin p) ∧
    (∃ p, oruhCdf x0 theta k sigma t x = some p ∧ oruhCdfFl x0 theta k sigma t x = Fl.fin p) ∧
    ∀ xi, xi ≠ 0 → 0 < k * theta → 0 < x0 → 0 < x →
      ∃ p, cirPdf x0 theta k xi t x = some p ∧ cirPdfFl x0 theta k xi t x = Fl.fin p := by
  have hv : 0 < oruhVar x0 theta k sigma t := by
    have e : oruhVar x0 theta k sigma t = sigma ^ 2 * expInt (2 * k) t := by
      rw [expInt_eq (mul_ne_zero two_ne_zero hk), oruhVar]; ring_nf
    rw [e]
    have : 0 < expInt (2 * k) t := intervalIntegral.intervalIntegral_pos_of_pos
      (by apply Continuous.intervalIntegrable; fun_prop) (fun s => exp_pos _) ht
    positivity
  have hm : oruhMeanFl x0 theta k sigma t = Fl.fin (oruhMean x0 theta k sigma t) := by
    simp [oruhMeanFl, oruhMean]
  refine ⟨⟨_, if_pos (sqrt_pos.2 hv), ?_⟩, ⟨_, if_pos (sqrt_pos.2 hv), ?_⟩, fun xi h1 h2 h3 h4 =>
    cirPdfFl_fin h3 h2 h1 ht h4⟩
  · rw [oruhPdfFl, hm, oruhVarFl_fin _ _ _ _ hk, Fl.sqrt_fin hv.le]
    simp only [normPdfFl, scipyNormPdf, if_pos (sqrt_pos.2 hv)]
  · rw [oruhCdfFl, hm, oruhVarFl_fin _ _ _ _ hk, Fl.sqrt_fin hv.le]
    simp only [normCdfFl, scipyNormCdf, if_pos (sqrt_pos.2 hv)]

/-- **C81** fails for `k = 0` (Ornstein-Uhlenbeck process). The process is `dx = sigma*dw`, and has mean `x0` and
variance `sigma**2*t`: `oruh_var`, `oruh_std`, `oruh_pdf`, `oruh_cdf` return NaN. -/
theorem C81_oruh_false (x0 theta sigma t x : ℝ) :
    (∃ q : Coefs, q.Of univ (fun x => 0 * (theta - x)) (fun _ => sigma) ∧
      MomentEq q x0 (fun _ => x0) (fun t => sigma ^ 2 * t)) ∧
    oruhVarFl x0 theta (0 : ℝ) sigma t = Fl.nan ∧ oruhSdFl x0 theta (0 : ℝ) sigma t = Fl.nan ∧
    oruhPdfFl x0 theta (0 : ℝ) sigma t x = Fl.nan ∧ oruhCdfFl x0 theta (0 : ℝ) sigma t x = Fl.nan := by
  have e : oruhVarFl x0 theta (0 : ℝ) sigma t = Fl.nan := by simp [oruhVarFl, Fl.div_zero_mul_zero]
  refine ⟨⟨⟨0, 0, sigma ^ 2, 0, 0⟩, fun x _ => ⟨by simp, by simp⟩, ⟨rfl, by simp, fun t => ?_, fun t => ?_⟩⟩, e,
    by rw [oruhSdFl, e]; rfl, by rw [oruhPdfFl, e]; simp [normPdfFl], by rw [oruhCdfFl, e]; simp [normCdfFl]⟩
  · simpa using hasDerivAt_const t x0
  · refine ((hasDerivAt_id t).const_mul (sigma ^ 2)).congr_deriv ?_
    simp

/-- **C81** (partial: as `k` tends to zero). The variance returned tends to the one for `k = 0`. -/
theorem C81_oruh_limit_partial (x0 theta sigma t : ℝ) :
    Tendsto (fun k => oruhVar x0 theta k sigma t) (𝓝[≠] 0) (𝓝 (sigma ^ 2 * t)) := by
  have h := ((expInt_cont t).comp (by fun_prop : Continuous fun k : ℝ => 2 * k)).const_mul (sigma ^ 2) |>.tendsto 0
  have h' := h.mono_left (nhdsWithin_le_nhds (s := {0}ᶜ))
  simp only [Function.comp, mul_zero, expInt_zero] at h'
  refine h'.congr' ?_
  filter_upwards [self_mem_nhdsWithin] with k hk
  rw [expInt_eq (mul_ne_zero two_ne_zero hk), oruhVar]; ring_nf

/-- **C81** fails for two factors with `k1 = 0`, or `k2 = 0`, or `k1 + k2 = 0`: `hw2f_var` and `hw2f_std` return NaN,
although mean and variance exist. -/
theorem C81_hw2f_false (x1 x2 theta1 theta2 s1 s2 rho t : ℝ) {k1 k2 : ℝ} (h : k1 = 0 ∨ k2 = 0 ∨ k1 + k2 = 0) :
    TwoFactorEq x1 x2 theta1 theta2 k1 k2 s1 s2 rho (hw2fMean x1 x2 theta1 theta2 k1 k2 s1 s2 rho)
      (fun t => s1 ^ 2 * expInt (2 * k1) t + 2 * (rho * s1 * s2 * expInt (k1 + k2) t) + s2 ^ 2 * expInt (2 * k2) t) ∧
    hw2fVarFl x1 x2 theta1 theta2 k1 k2 s1 s2 rho t = Fl.nan ∧
    hw2fSdFl x1 x2 theta1 theta2 k1 k2 s1 s2 rho t = Fl.nan := by
  have hmean : ∀ k theta x t : ℝ, HasDerivAt (fun t => theta - exp (-k * t) * (theta - x))
      (k * (theta - (theta - exp (-k * t) * (theta - x)))) t := by
    intro k theta x t
    have := ((hasDerivAt_exp_mul (-k) t).mul_const (theta - x)).const_sub theta
    refine this.congr_deriv ?_; ring
  have hvar : ∀ c s : ℝ, ∀ t, HasDerivAt (fun t => s * expInt c t) (-c * (s * expInt c t) + s) t := by
    intro c s t
    refine ((expInt_deriv c t).const_mul s).congr_deriv ?_
    have := expInt_mul c t
    linear_combination s * this
  have e : hw2fVarFl x1 x2 theta1 theta2 k1 k2 s1 s2 rho t = Fl.nan := by
    rcases h with rfl | rfl | h
    · simp [hw2fVarFl, Fl.div_zero_mul_zero]
    · simp [hw2fVarFl, Fl.div_zero_mul_zero]
    · simp only [hw2fVarFl, Fl.add_fin, h]
      simp [Fl.div_zero_mul_zero]
  refine ⟨⟨_, _, _, _, _, ⟨?_, hmean k1 theta1 x1⟩, ⟨?_, hmean k2 theta2 x2⟩, ⟨?_, hvar (k1 + k1) (s1 * s1)⟩,
    ⟨?_, hvar (k1 + k2) (rho * s1 * s2)⟩, ⟨?_, hvar (k2 + k2) (s2 * s2)⟩, ?_, ?_⟩, e, by rw [hw2fSdFl, e]; rfl⟩
  · simp
  · simp
  · simp [expInt]
  · simp [expInt]
  · simp [expInt]
  · funext t; simp only [hw2fMean]; ring_nf
  · funext t; simp only [← two_mul, ← pow_two]

/-- **C81** (partial, two factors: as the parameters tend to values where the formula divides by zero). -/
theorem C81_hw2f_limit_partial (x1 x2 theta1 theta2 s1 s2 rho t a b : ℝ) :
    Tendsto (fun k : ℝ × ℝ => hw2fVar x1 x2 theta1 theta2 k.1 k.2 s1 s2 rho t)
      (𝓝[{k | k.1 ≠ 0 ∧ k.2 ≠ 0 ∧ k.1 + k.2 ≠ 0}] (a, b))
      (𝓝 (s1 ^ 2 * expInt (2 * a) t + 2 * (rho * s1 * s2 * expInt (a + b) t) + s2 ^ 2 * expInt (2 * b) t)) := by
  have hc : Continuous fun k : ℝ × ℝ => s1 ^ 2 * expInt (2 * k.1) t + 2 * (rho * s1 * s2 * expInt (k.1 + k.2) t) +
      s2 ^ 2 * expInt (2 * k.2) t := by
    have := expInt_cont t
    have c1 : Continuous fun k : ℝ × ℝ => expInt (2 * k.1) t := this.comp (by fun_prop)
    have c2 : Continuous fun k : ℝ × ℝ => expInt (k.1 + k.2) t := this.comp (by fun_prop)
    have c3 : Continuous fun k : ℝ × ℝ => expInt (2 * k.2) t := this.comp (by fun_prop)
    fun_prop
  refine ((hc.tendsto (a, b)).mono_left nhdsWithin_le_nhds).congr' ?_
  filter_upwards [self_mem_nhdsWithin] with k hk
  obtain ⟨h1, h2, h3⟩ := hk
  rw [expInt_eq (mul_ne_zero two_ne_zero h1), expInt_eq (mul_ne_zero two_ne_zero h2), expInt_eq h3, hw2fVar]
  ring_nf

/-- **C81** fails for `k = 0` (Cox-Ingersoll-Ross process). The process is `dx = xi*sqrt(x)*dw`, and has mean `x0`
and variance `xi**2*x0*t`: `cir_var` and `cir_std` return NaN. -/
theorem C81_cir_false (x0 theta xi t : ℝ) :
    (∃ q : Coefs, q.Of {x | 0 ≤ x} (fun x => 0 * (theta - x)) (fun x => xi * √x) ∧
      MomentEq q x0 (fun _ => x0) (fun t => xi ^ 2 * x0 * t)) ∧
    cirVarFl x0 theta (0 : ℝ) xi t = Fl.nan ∧ cirSdFl x0 theta (0 : ℝ) xi t = Fl.nan := by
  have e : cirVarFl x0 theta (0 : ℝ) xi t = Fl.nan := by simp [cirVarFl, Fl.div_zero_mul_zero]
  refine ⟨⟨⟨0, 0, 0, xi ^ 2, 0⟩, fun x hx => ⟨by simp, ?_⟩, ⟨rfl, by simp, fun t => ?_, fun t => ?_⟩⟩, e,
    by rw [cirSdFl, e]; rfl⟩
  · simp only
    rw [mul_pow, sq_sqrt hx]; ring
  · simpa using hasDerivAt_const t x0
  · refine ((hasDerivAt_id t).const_mul (xi ^ 2 * x0)).congr_deriv ?_
    simp

/-- **C81** (partial, Cox-Ingersoll-Ross process: as `k` tends to zero). -/
theorem C81_cir_limit_partial (x0 theta xi t : ℝ) :
    Tendsto (fun k => cirVar x0 theta k xi t) (𝓝[≠] 0) (𝓝 (xi ^ 2 * x0 * t)) := by
  have hc : Continuous fun k : ℝ => xi ^ 2 * (expInt k t * (theta / 2 + (x0 - theta / 2) * exp (-k * t))) := by
    have := expInt_cont t
    fun_prop
  have h := (hc.tendsto 0).mono_left (nhdsWithin_le_nhds (s := {0}ᶜ))
  simp only [expInt_zero, neg_zero, zero_mul, exp_zero] at h
  have e : xi ^ 2 * (t * (theta / 2 + (x0 - theta / 2) * 1)) = xi ^ 2 * x0 * t := by ring
  rw [e] at h
  refine h.congr' ?_
  filter_upwards [self_mem_nhdsWithin] with k hk
  rw [expInt_eq hk, cirVar]; ring

/-- **C81** fails for `k = 0` (Heston process). The variance process is `dy = xi*sqrt(y)*dw2`, and mean and variance
of the logarithm are polynomials in `t`: `heston_log_mean`, `heston_log_var` and `heston_log_std` return NaN. -/
theorem C81_heston_false (x0 mu sigma y0 theta xi rho t : ℝ) :
    HestonEq x0 mu sigma y0 theta 0 xi rho (fun t => log x0 + (mu - sigma ^ 2 * y0 / 2) * t)
      (fun t => sigma ^ 2 * y0 * t - rho * sigma ^ 3 * xi * y0 * t ^ 2 / 2 +
        sigma ^ 4 * xi ^ 2 * y0 * t ^ 3 / 12) ∧
    hestonLogMeanFl x0 mu sigma y0 theta (0 : ℝ) xi rho t = Fl.nan ∧
    hestonLogVarFl x0 mu sigma y0 theta (0 : ℝ) xi rho t = Fl.nan ∧
    hestonLogSdFl x0 mu sigma y0 theta (0 : ℝ) xi rho t = Fl.nan := by
  have e : hestonLogVarFl x0 mu sigma y0 theta (0 : ℝ) xi rho t = Fl.nan := by
    simp [hestonLogVarFl, Fl.div_fin _ (two_ne_zero (α := ℝ))]
    ring_nf
    simp
  refine ⟨⟨fun _ => y0, fun t => xi ^ 2 * y0 * t,
    fun t => rho * sigma * xi * y0 * t - sigma ^ 2 * xi ^ 2 * y0 * t ^ 2 / 4,
    ⟨rfl, fun t => ?_⟩, ⟨by simp, fun t => ?_⟩, ⟨by simp, fun t => ?_⟩, ⟨by simp, fun t => ?_⟩, by simp, fun t => ?_⟩,
    by simp [hestonLogMeanFl, Fl.div_fin _ (two_ne_zero (α := ℝ))], e, by rw [hestonLogSdFl, e]; rfl⟩
  · simpa using hasDerivAt_const t y0
  · refine ((hasDerivAt_id t).const_mul (xi ^ 2 * y0)).congr_deriv ?_
    simp
  · refine (((hasDerivAt_id t).const_mul (rho * sigma * xi * y0)).sub
      (((hasDerivAt_pow 2 t).const_mul (sigma ^ 2 * xi ^ 2 * y0)).div_const 4)).congr_deriv ?_
    simp; ring
  · refine (((hasDerivAt_id t).const_mul (mu - sigma ^ 2 * y0 / 2)).const_add (log x0)).congr_deriv ?_
    simp; ring
  · refine ((((hasDerivAt_id t).const_mul (sigma ^ 2 * y0)).sub
      (((hasDerivAt_pow 2 t).const_mul (rho * sigma ^ 3 * xi * y0)).div_const 2)).add
      (((hasDerivAt_pow 3 t).const_mul (sigma ^ 4 * xi ^ 2 * y0)).div_const 12)).congr_deriv ?_
    simp; ring

/-- **C81** (partial, Heston process: as `k` tends to zero). -/
theorem C81_heston_limit_partial (x0 mu sigma y0 theta xi rho t : ℝ) :
    Tendsto (fun k => hestonLogMean x0 mu sigma y0 theta k xi rho t) (𝓝[≠] 0)
      (𝓝 (log x0 + (mu - sigma ^ 2 * y0 / 2) * t)) ∧
    Tendsto (fun k => hestonLogVar x0 mu sigma y0 theta k xi rho t) (𝓝[≠] 0)
      (𝓝 (sigma ^ 2 * y0 * t - rho * sigma ^ 3 * xi * y0 * t ^ 2 / 2 +
        sigma ^ 4 * xi ^ 2 * y0 * t ^ 3 / 12)) := by
  refine ⟨?_, heston_limit x0 mu sigma y0 theta xi rho t⟩
  have hc : Continuous fun k : ℝ => log x0 + sigma * sigma * (theta - y0) * (expInt k t) / 2 +
      (mu - theta * sigma * sigma / 2) * t := by
    have := expInt_cont t
    fun_prop
  have h := (hc.tendsto 0).mono_left (nhdsWithin_le_nhds (s := {0}ᶜ))
  simp only [expInt_zero] at h
  have e : log x0 + sigma * sigma * (theta - y0) * t / 2 + (mu - theta * sigma * sigma / 2) * t =
      log x0 + (mu - sigma ^ 2 * y0 / 2) * t := by ring
  rw [e] at h
  refine h.congr' ?_
  filter_upwards [self_mem_nhdsWithin] with k hk
  have hk : k ≠ 0 := hk
  rw [expInt_eq hk, hestonLogMean]
  field_simp

/-! ### values near the initial time, and null initial values -/

/-- The density of a Cox-Ingersoll-Ross process that starts at zero. -/
theorem ncGamma_zero (a c x : ℝ) (hx : 0 < x) : ncGamma a c 0 x = gammaPDFReal a c x := by
  unfold ncGamma gammaPDFReal
  rw [if_pos hx.le, tsum_eq_single 0 (fun m hm => by simp [poissonW, hm])]
  simp [poissonW]
  ring

theorem ncGamma_cont {a c x : ℝ} (ha : 0 < a) (hc : 0 < c) (hx : 0 < x) :
    Tendsto (fun l => ncGamma a c l x) (𝓝[>] 0) (𝓝 (ncGamma a c 0 x)) := by
  unfold ncGamma
  set b : ℕ → ℝ := fun m => c ^ (a + m) / Gamma (a + m) * (x ^ (a + m - 1) * exp (-(c * x))) with hb
  have hb0 : ∀ m, 0 ≤ b m := fun m => by
    have : 0 < Gamma (a + m) := Gamma_pos_of_pos (by positivity)
    positivity
  have hbm : ∀ m, b m ≤ b 0 * (c * x / a) ^ m := by
    intro m
    induction m with
    | zero => simp
    | succ m ih =>
      have h0 : a + (m : ℝ) ≠ 0 := by positivity
      have hG : Gamma (a + m) ≠ 0 := (Gamma_pos_of_pos (by positivity)).ne'
      have e : b (m + 1) = b m * (c * x / (a + m)) := by
        simp only [hb]
        push_cast
        rw [show a + ((m : ℝ) + 1) = (a + m) + 1 by ring, Gamma_add_one h0, rpow_add_one hc.ne',
          show a + (m : ℝ) + 1 - 1 = (a + m - 1) + 1 by ring, rpow_add_one hx.ne']
        field_simp
      rw [e, pow_succ, ← mul_assoc]
      refine mul_le_mul ih ?_ (by positivity) (by have := hb0 0; positivity)
      refine div_le_div_of_nonneg_left (by positivity) ha ?_
      have : (0 : ℝ) ≤ m := Nat.cast_nonneg m
      linarith
  refine tendsto_tsum_of_dominated_convergence (bound := fun m => b 0 * ((c * x / a) ^ m / m !))
    ((summable_pow_div_factorial _).mul_left _) (fun m => ?_) ?_
  · have : Continuous fun l => poissonW l m * b m := by unfold poissonW; fun_prop
    exact (this.tendsto 0).mono_left nhdsWithin_le_nhds
  · have h1 : ∀ᶠ l : ℝ in 𝓝[>] 0, l ≤ 1 :=
      (eventually_le_nhds one_pos).filter_mono nhdsWithin_le_nhds
    filter_upwards [h1, self_mem_nhdsWithin] with l hl1 hl0 m
    have hl0 : 0 < l := hl0
    have hp := poissonW_nonneg hl0.le m
    have h2 : poissonW l m ≤ 1 / m ! := by
      unfold poissonW
      refine div_le_div_of_nonneg_right ?_ (by positivity)
      have := pow_le_one₀ (n := m) hl0.le hl1
      have e1 : exp (-l) ≤ 1 := by rw [exp_le_one_iff]; linarith
      exact mul_le_one₀ e1 (by positivity) this
    rw [Real.norm_eq_abs, abs_of_nonneg (mul_nonneg hp (hb0 m))]
    calc poissonW l m * b m ≤ 1 / m ! * (b 0 * (c * x / a) ^ m) :=
          mul_le_mul h2 (hbm m) (hb0 m) (by positivity)
      _ = b 0 * ((c * x / a) ^ m / m !) := by ring

/-- **C81** fails for densities. `cir_pdf` returns NaN if the process starts at zero, unless the order `q` of the Bessel
function is zero, and at the initial time. -/
theorem C81_cir_pdf_false {theta k xi t x : ℝ} (hk : 0 < k) (hth : 0 < theta) (hxi : xi ≠ 0) (hx : 0 < x) :
    (0 < t → 2 * k * theta ≠ xi ^ 2 → cirPdfFl (0 : ℝ) theta k xi t x = Fl.nan) ∧
    ∀ x0 : ℝ, 0 < x0 → cirPdfFl x0 theta k xi (0 : ℝ) x = Fl.nan := by
  have hxi2 : 0 < xi * xi := mul_self_pos.2 hxi
  refine ⟨fun ht hq => ?_, fun x0 hx0 => ?_⟩
  · have hal : 1 - exp (-k * t) ≠ 0 := by
      intro h
      have : exp (-k * t) = 1 := by linarith
      rw [exp_eq_one_iff] at this
      rcases mul_eq_zero.1 this with h | h
      · linarith
      · exact ht.ne' h
    have hq0 : -1 < 2 * k * theta / (xi * xi) - 1 := by
      have : 0 < 2 * k * theta / (xi * xi) := by positivity
      linarith
    have hq1 : 2 * k * theta / (xi * xi) - 1 ≠ 0 := by
      intro h
      rw [sub_eq_zero, div_eq_one_iff_eq hxi2.ne'] at h
      exact hq (by rw [h]; ring)
    simp only [cirPdfFl, Fl.ofNat_1, Fl.ofNat_2, Fl.mul_fin, Fl.neg_fin, Fl.exp_fin, Fl.sub_fin, Fl.add_fin,
      Fl.div_fin _ hal, Fl.div_fin _ hxi2.ne', zero_mul, mul_zero, Fl.sqrt_fin le_rfl, sqrt_zero, Fl.div_zero,
      if_neg hx.ne', decide_eq_false (not_lt.2 hx.le)]
    simp only [Fl.rpow, ivFl, if_true]
    rw [if_neg (c := (0 : ℝ) < 0 ∨ _) (by rintro (h | h) <;> linarith)]
    have hcp : 2 * k / (1 - exp (-k * t)) / (xi * xi) ≠ 0 := by positivity
    rcases lt_or_gt_of_ne hq1 with h | h
    · rw [if_pos (by linarith), if_pos h, Fl.mul_fin, mul_zero]
      show Fl.infMul false 0 = Fl.nan
      simp [Fl.infMul]
    · rw [if_neg (by linarith), if_neg (by intro h'; apply hq1; linarith), if_neg (by linarith), if_neg hq1]
      have e : ∀ y : ℝ, y ≠ 0 → Fl.fin y * Fl.inf false * Fl.fin 0 = Fl.nan := by
        intro y hy
        show Fl.infMul false y * _ = _
        simp [Fl.infMul, hy]
      exact e _ (mul_ne_zero hcp (exp_ne_zero _))
  · have h1 : Fl.fin (2 * k) / Fl.fin 0 = Fl.inf false := by
      rw [Fl.div_zero, if_neg (by positivity), decide_eq_false (by have := hk; linarith)]
    have h2 : Fl.inf false / Fl.fin (xi * xi) = Fl.inf false := by
      show Fl.inf (false ^^ decide (xi * xi < 0)) = _
      rw [decide_eq_false (not_lt.2 hxi2.le)]; rfl
    simp only [cirPdfFl, Fl.ofNat_1, Fl.ofNat_2, Fl.mul_fin, Fl.neg_fin, Fl.exp_fin, Fl.sub_fin, Fl.add_fin,
      mul_zero, exp_zero, sub_self, h1, h2, Fl.div_fin _ hxi2.ne']
    have h3 : -(Fl.inf false) = Fl.inf true := rfl
    have h4 : Fl.inf true * Fl.fin (x0 * 1 + x) = Fl.inf true := by
      show Fl.infMul true _ = _
      have : 0 < x0 * 1 + x := by linarith
      rw [Fl.infMul, if_neg this.ne', decide_eq_false (not_lt.2 this.le)]; rfl
    have h5 : Fl.exp (Fl.inf true) = Fl.fin 0 := by simp [Fl.exp]
    rw [h3, h4, h5, Fl.inf_mul_zero]
    simp

/-- **C81** (partial, null initial value: as the initial value tends to zero). `cir_pdf` tends to the density of a gamma
distribution. -/
theorem C81_cir_zero_limit_partial {theta k xi t x : ℝ} {p : ℝ → ℝ → ℝ → ℝ} (hp : IsCirPdf theta k xi p)
    (hkt : 0 < k * theta) (hxi : xi ≠ 0) (ht : 0 < t) (hx : 0 < x) :
    Tendsto (fun y => p t y x) (𝓝[>] 0)
      (𝓝 (gammaPDFReal (2 * k * theta / xi ^ 2) (2 * k / (xi ^ 2 * (1 - exp (-k * t)))) x)) := by
  have hk : k ≠ 0 := by rintro rfl; simp at hkt
  have hc : 0 < 1 / cirH k xi t := one_div_pos.2 (cirH_pos hk hxi ht)
  have ha : 0 < 2 * k * theta / xi ^ 2 := div_pos (by nlinarith) (by positivity)
  have e : 2 * k / (xi ^ 2 * (1 - exp (-k * t))) = 1 / cirH k xi t := by rw [cirH, one_div_div]
  rw [e, ← ncGamma_zero _ _ _ hx]
  have h0 : Tendsto (fun y : ℝ => 1 / cirH k xi t * (y * exp (-k * t))) (𝓝[>] 0) (𝓝[>] 0) := by
    refine tendsto_nhdsWithin_iff.2 ⟨?_, ?_⟩
    · have : Continuous fun y : ℝ => 1 / cirH k xi t * (y * exp (-k * t)) := by fun_prop
      have := this.tendsto 0
      simp only [zero_mul, mul_zero] at this
      exact this.mono_left nhdsWithin_le_nhds
    · filter_upwards [self_mem_nhdsWithin] with y hy
      have hy : 0 < y := hy
      exact (by positivity : 0 < 1 / cirH k xi t * (y * exp (-k * t)))
  refine ((ncGamma_cont ha hc hx).comp h0).congr' ?_
  filter_upwards [self_mem_nhdsWithin] with y hy
  exact (isCirPdf_eq hp hk hxi ht hy hx).symm

/-- **C81** (null initial value). Values simulated by `cox_ingersoll_ross_process` that starts at zero converge in
distribution to that gamma distribution. -/
theorem C81_cir_zero {theta k xi τ : ℝ} (hth : 0 < theta)
    (hk : 0 < k) (hxi : xi ≠ 0) (hτ : 0 < τ) (f : ℝ →ᵇ ℝ) (z : ℝ) {ε : ℝ} (hε : 0 < ε) :
    ∃ δ0 : ℝ, 0 < δ0 ∧ ∀ (ι σ : Type) [Countable ι] [MeasurableSpace σ] (μ : Measure σ)
      [IsProbabilityMeasure μ] (x0 th kk xx : ι → ℝ) (i : ι) (dw : Src ℝ ι σ)
      (fuel : ℕ) (steps : Steps ℝ) (i0 : ℤ) (tl : TArr ℝ) (grid : List ℝ) (t0 δ : ℝ),
      x0 i = 0 → th i = theta → kk i = k → xx i = xi →
      (∀ t dt, dt ≠ 0 → ∃ N, DrawsLaw μ N (dw t dt) ∧
        N.map (fun x => x i) = gaussianReal 0 |dt|.toNNReal) →
      Along fuel steps i0 tl grid t0 → Mesh grid δ → 0 < δ → δ ≤ δ0 → t0 + τ ∈ tl.data →
      ∃ (X : ℝ → σ → ι → ℝ) (st : σ → σ),
        (∀ s, (cirSDE x0 (fun _ => th) (fun _ => kk) (fun _ => xx) dw).call fuel steps i0 tl s =
          .ok (tl.data.map fun t => some (X t s), st s)) ∧
        |∫ s, f (X (t0 + τ) s i) ∂μ - ∫ x in Ioi 0, f x *
          gammaPDFReal (2 * k * theta / xi ^ 2) (2 * k / (xi ^ 2 * (1 - exp (-k * τ)))) x| ≤ ε ∧
        |μ.real {s | X (t0 + τ) s i ≤ z} - ∫ x in Ioc 0 z,
          gammaPDFReal (2 * k * theta / xi ^ 2) (2 * k / (xi ^ 2 * (1 - exp (-k * τ)))) x| ≤ ε := by
  have hc : 0 < 1 / cirH k xi τ := one_div_pos.2 (cirH_pos hk.ne' hxi hτ)
  have ha : 0 < 2 * k * theta / xi ^ 2 := by positivity
  have e : 2 * k / (xi ^ 2 * (1 - exp (-k * τ))) = 1 / cirH k xi τ := by rw [cirH, one_div_div]
  rw [e]
  set g := gammaPDFReal (2 * k * theta / xi ^ 2) (1 / cirH k xi τ) with hg
  have hgn : ∀ x > 0, g x = ncGamma (2 * k * theta / xi ^ 2) (1 / cirH k xi τ) 0 x := fun x hx =>
    (ncGamma_zero _ _ _ hx).symm
  have d0 : ∀ x > 0, 0 ≤ g x := fun x hx => by rw [hgn x hx]; exact ncGamma_nonneg ha hc le_rfl hx
  have d1 : IntegrableOn g (Ioi 0) :=
    (ncGamma_integrable ha hc le_rfl).1.congr_fun (fun x hx => (hgn x hx).symm) measurableSet_Ioi
  have d2 : ∫ x in Ioi 0, g x = 1 := by
    rw [setIntegral_congr_fun measurableSet_Ioi fun x hx => hgn x hx]
    exact ncGamma_mass ha hc le_rfl
  have hn : ChfNear (chainLawSnd 0 0 theta k xi 1 0 0 τ) (charFun (posDensity g)) := by
    refine chainLawSnd_near hth hk (by simp) le_rfl hτ.le fun v => ⟨_, _, cir_riccati hk hxi 1 v, ?_⟩
    have e : posDensity g = posDensity (ncGamma (2 * k * theta / xi ^ 2) (1 / cirH k xi τ) 0) := by
      unfold posDensity
      refine withDensity_congr_ae ((ae_restrict_iff' measurableSet_Ioi).2 (.of_forall fun x hx => ?_))
      simp only
      rw [hgn x hx]
    rw [e, ncGamma_chf ha hc le_rfl]
    unfold ncGammaMgf
    simp only [Complex.ofReal_zero, zero_mul, zero_div, Complex.exp_zero, mul_one, mul_zero, add_zero]
    have hh' : (cirH k xi τ : ℂ) ≠ 0 := by exact_mod_cast (cirH_pos hk.ne' hxi hτ).ne'
    congr 4
    push_cast
    field_simp
  have := posDensity_prob d0 d1 d2
  obtain ⟨δ1, hδ1, h1⟩ := chfNear_integral hn f hε
  obtain ⟨δ2, hδ2, h2⟩ := chfNear_cdf hn (posDensity_atom _ z) hε
  refine ⟨min δ1 δ2, by positivity, ?_⟩
  intro ι σ _ _ μ _ x0 th kk xx i dw fuel steps i0 tl grid t0 δ e0 e1 e2 e3 hw h hm hδ hδ' ht
  obtain ⟨X, st, e, hc⟩ := cir_chain e0 e1 e2 e3 hw h hm
  have hg := (along_mem h).2.2 _ ht
  have hR : chainLawSnd 0 0 theta k xi 1 0 0 τ (μ.map fun s => X (t0 + τ) s i) δ :=
    ⟨σ, _, μ, grid, t0, _, hc, hg, rfl⟩
  have hmeas : Measurable fun s => X (t0 + τ) s i := measurable_snd.comp (hc.meas _ hg)
  refine ⟨X, st, e, ?_, ?_⟩
  · have := h1 _ _ hR hδ (hδ'.trans (min_le_left _ _))
    rw [integral_map hmeas.aemeasurable f.continuous.aestronglyMeasurable, posDensity_integral d0 d1] at this
    simpa only [smul_eq_mul, mul_comm] using this
  · have := h2 _ _ hR hδ (hδ'.trans (min_le_right _ _))
    rw [map_measureReal_apply hmeas measurableSet_Iic, posDensity_cdf d0 d1] at this
    exact this

/-- **C81** fails at the initial time. The value of a process is `x0` there, and its cumulative distribution has only values
0 and 1: the functions `*_cdf` return NaN. -/
theorem C81_initial_false (x0 mu sigma theta k x2 theta2 k2 s2 rho x : ℝ) :
    wienerCdf x0 mu sigma 0 x = none ∧ lognormCdf x0 mu sigma 0 x = none ∧ oruhCdf x0 theta k sigma 0 x = none ∧
    hw2fCdf x0 x2 theta theta2 k k2 sigma s2 rho 0 x = none := by
  refine ⟨?_, ?_, ?_, ?_⟩
  · simp [wienerCdf, scipyNormCdf]
  · simp [lognormCdf, scipyLognormCdf]
  · simp [oruhCdf, scipyNormCdf, oruhVar]
  · simp [hw2fCdf, scipyNormCdf, hw2fVar]

/-- **C81** fails if nothing is random. At the initial time, or with no volatility, the value of an Ornstein-Uhlenbeck process
is known: its cumulative distribution has values 0 and 1, but `oruh_cdf` returns NaN, and so does `oruh_pdf`. -/
theorem C81_oruh_known_false (x0 theta sigma x : ℝ) {k t : ℝ} (hk : k ≠ 0) (h : t = 0 ∨ sigma = 0) :
    oruhPdfFl x0 theta k sigma t x = Fl.nan ∧ oruhCdfFl x0 theta k sigma t x = Fl.nan := by
  have hm : oruhMeanFl x0 theta k sigma t = Fl.fin (oruhMean x0 theta k sigma t) := by
    simp [oruhMeanFl, oruhMean]
  have hv : oruhVar x0 theta k sigma t = 0 := by
    rcases h with rfl | rfl <;> simp [oruhVar]
  constructor
  · rw [oruhPdfFl, hm, oruhVarFl_fin _ _ _ _ hk, hv, Fl.sqrt_fin le_rfl]
    simp [normPdfFl, scipyNormPdf]
  · rw [oruhCdfFl, hm, oruhVarFl_fin _ _ _ _ hk, hv, Fl.sqrt_fin le_rfl]
    simp [normCdfFl, scipyNormCdf]

/-- **C81** (partial: near the initial time). The cumulative distribution of a Wiener process tends to the one of its
initial value, where the latter is continuous. -/
theorem C81_initial_limit_partial (x0 mu : ℝ) {sigma x : ℝ} (hs : 0 < sigma) (hx : x ≠ x0) :
    ∃ c : ℝ → ℝ, (∀ t > 0, wienerCdf x0 mu sigma t x = some (c t)) ∧
      Tendsto c (𝓝[>] 0) (𝓝 (if x0 ≤ x then 1 else 0)) := by
  refine ⟨fun t => normCdf ((x - (x0 + mu * t)) / (sigma * √t)), fun t ht => ?_, ?_⟩
  · rw [wienerCdf, scipyNormCdf, if_pos (by positivity)]
  have hinv : Tendsto (fun t : ℝ => (sigma * √t)⁻¹) (𝓝[>] 0) atTop := by
    refine tendsto_inv_nhdsGT_zero.comp (tendsto_nhdsWithin_iff.2 ⟨?_, ?_⟩)
    · have : Continuous fun t : ℝ => sigma * √t := by fun_prop
      have := this.tendsto 0
      simp only [sqrt_zero, mul_zero] at this
      exact this.mono_left nhdsWithin_le_nhds
    · filter_upwards [self_mem_nhdsWithin] with t ht
      have ht : 0 < t := ht
      exact (by positivity : 0 < sigma * √t)
  have hnum : Tendsto (fun t : ℝ => x - (x0 + mu * t)) (𝓝[>] 0) (𝓝 (x - x0)) := by
    have : Continuous fun t : ℝ => x - (x0 + mu * t) := by fun_prop
    have := this.tendsto 0
    simp only [mul_zero, add_zero] at this
    exact this.mono_left nhdsWithin_le_nhds
  simp only [div_eq_mul_inv]
  rcases lt_or_gt_of_ne hx with h | h
  · rw [if_neg (not_le.2 h)]
    exact tendsto_normCdf_atBot.comp (hnum.neg_mul_atTop (by linarith) hinv)
  · rw [if_pos h.le]
    exact tendsto_normCdf_atTop.comp (hnum.pos_mul_atTop (by linarith) hinv)

/-! ### examples -/

example : oruhCdfFl (1 : ℝ) (2 : ℝ) (3 : ℝ) (4 : ℝ) (0 : ℝ) (5 : ℝ) = Fl.nan :=
  (C81_oruh_known_false 1 2 4 5 (k := 3) (by norm_num) (.inl rfl)).2

example : hw2fVarFl (0 : ℝ) (0 : ℝ) (0 : ℝ) (0 : ℝ) (1 : ℝ) (-1 : ℝ) (1 : ℝ) (1 : ℝ) (0.5 : ℝ) (1 : ℝ) = Fl.nan :=
  (C81_hw2f_false 0 0 0 0 1 1 0.5 1 (k1 := 1) (k2 := -1) (by norm_num)).2.1

example : cirPdfFl (0 : ℝ) (1 : ℝ) (2 : ℝ) (1 : ℝ) (0.5 : ℝ) (3 : ℝ) = Fl.nan :=
  (C81_cir_pdf_false (by norm_num) (by norm_num) (by norm_num) (by norm_num)).1 (by norm_num) (by norm_num)

example : oruhVarFl (1 : ℝ) (2 : ℝ) (-1 : ℝ) (3 : ℝ) (0.5 : ℝ) = Fl.fin (oruhVar 1 2 (-1) 3 0.5) :=
  (C81_finite_partial 1 2 3 0 0 0 0 (k := -1) (by norm_num) (by norm_num)).1

example {p : ℝ → ℝ → ℝ → ℝ} (hp : IsCirPdf 1 2 1 p) :
    Tendsto (fun y => p 0.5 y 3) (𝓝[>] 0)
      (𝓝 (gammaPDFReal (2 * 2 * 1 / 1 ^ 2) (2 * 2 / (1 ^ 2 * (1 - exp (-2 * 0.5)))) 3)) :=
  C81_cir_zero_limit_partial hp (by norm_num) (by norm_num) (by norm_num) (by norm_num)

/-- With enough steps, the probability that the value simulated after one unit of time, starting from zero, is at most 5. -/
example : ∃ (N fuel : ℕ)
    (X : ℝ → (ℕ → Item ℝ) → Cells ([2] ++ [3]) → ℝ) (st : (ℕ → Item ℝ) → ℕ → Item ℝ),
    (∀ s, (cirSDE (fun _ => 0) (fun _ _ => 1) (fun _ _ => 2) (fun _ _ => 3)
      (wienerCells ([2] ++ [3]) ⟨3, [2], .none⟩ (itemRng ℝ))).call fuel (.int N) 0
        ⟨[2], [1, 2]⟩ s = .ok ([some (X 1 s), some (X 2 s)], st s)) ∧
    |(Measure.infinitePi fun _ : ℕ => itemLaw stdNormal).real {s | X 2 s ⟨[1, 2], by decide⟩ ≤ 5} -
      ∫ x in Ioc 0 5, gammaPDFReal (2 * 2 * 1 / 3 ^ 2) (2 * 2 / (3 ^ 2 * (1 - exp (-2 * 1)))) x| ≤ 1 / 1000 := by
  obtain ⟨δ0, hδ0, h⟩ := C81_cir_zero (theta := 1) (k := 2) (xi := 3) (τ := 1) (by norm_num) (by norm_num)
    (by norm_num) (by norm_num) 0 5 (ε := 1 / 1000) (by norm_num)
  obtain ⟨N, hN⟩ := exists_mesh ⟨[2], [1, 2]⟩ hδ0
  obtain ⟨fuel, grid, hal⟩ := along_of_valid (steps := .int N) (i0 := 0) (tl := ⟨[2], [1, 2]⟩)
    (i := 0) (t0 := 1) ⟨rfl, by simp⟩ ⟨by simp, .inl rfl⟩ rfl (by rintro _ ⟨⟩; simp)
  obtain ⟨X, st, e, -, hX⟩ := h (Cells ([2] ++ [3])) _ (Measure.infinitePi fun _ : ℕ => itemLaw stdNormal)
    (fun _ => 0) (fun _ => 1) (fun _ => 2) (fun _ => 3) ⟨[1, 2], by decide⟩ _ fuel (.int N) 0 _ grid 1 δ0
    rfl rfl rfl rfl (exCirNoise _) hal (hN fuel N 0 grid 1 le_rfl hal) hδ0 le_rfl (by norm_num)
  rw [show (1 : ℝ) + 1 = 2 by norm_num] at hX
  exact ⟨N, fuel, X, st, e, hX⟩

end Sdepy
