import Verif.Model.CirPdf
import Verif.Lemmas.NcGamma
import Mathlib.Analysis.SpecialFunctions.Pow.Deriv
import Mathlib.Analysis.SpecialFunctions.Pow.Continuity

/-!
# Density of the Cox-Ingersoll-Ross process (C62)
-/

namespace Sdepy
namespace Spec
end Spec
open Spec Real MeasureTheory Set Filter Topology
open scoped Nat

/-! ### specification -/

/-- Backward Kolmogorov equation of the Cox-Ingersoll-Ross process
`dx = k*(theta - x)*dt + xi*sqrt(x)*dw`: it holds for the expected value, after a time `t`, of a
function of the process, as a function `f` of `t` and of the initial value `y`. -/
def Spec.CirBackward (theta k xi : ℝ) (f : ℝ → ℝ → ℝ) (t y : ℝ) : Prop :=
  ∃ ft : ℝ, ∃ fy fyy : ℝ → ℝ, HasDerivAt (fun t' => f t' y) ft t ∧
    (∀ y' > 0, HasDerivAt (fun y'' => f t y'') (fy y') y') ∧ (∀ y' > 0, HasDerivAt fy (fyy y') y') ∧
    ft = k * (theta - y) * fy y + xi ^ 2 * y / 2 * fyy y

/-- `p t x0 x` is what `cir_pdf` returns at positive times and values. -/
def Spec.IsCirPdf (theta k xi : ℝ) (p : ℝ → ℝ → ℝ → ℝ) : Prop :=
  ∀ t > 0, ∀ x0 > 0, ∀ x > 0, cirPdf x0 theta k xi t x = some (p t x0 x)

/-! ### lemmas -/

/-- Twice the inverse of the scale `c` of the density. -/
noncomputable def cirH (k xi t : ℝ) : ℝ := xi ^ 2 * (1 - exp (-k * t)) / (2 * k)

theorem cirH_pos {k xi t : ℝ} (hk : k ≠ 0) (hxi : xi ≠ 0) (ht : 0 < t) : 0 < cirH k xi t := by
  unfold cirH
  have h2 : 0 < xi ^ 2 := by positivity
  rcases lt_or_gt_of_ne hk with h | h
  · have : 1 < exp (-k * t) := by rw [one_lt_exp_iff]; nlinarith
    exact div_pos_of_neg_of_neg (by nlinarith) (by linarith)
  · have : exp (-k * t) < 1 := by rw [exp_lt_one_iff]; nlinarith
    exact div_pos (by nlinarith) (by linarith)

theorem cirC_eq {k xi t : ℝ} (hxi : xi ≠ 0) :
    2 * k / (1 - exp (-k * t)) / (xi * xi) = 1 / cirH k xi t := by
  unfold cirH
  rw [one_div_div, div_div]
  congr 1
  ring

theorem cirH_deriv {k xi : ℝ} (hk : k ≠ 0) (t : ℝ) :
    HasDerivAt (cirH k xi) (xi ^ 2 / 2 * exp (-k * t)) t := by
  unfold cirH
  have h1 : HasDerivAt (fun t : ℝ => -k * t) (-k) t := by
    simpa using (hasDerivAt_id t).const_mul (-k)
  have h := (((h1.exp).const_sub 1).const_mul (xi ^ 2)).div_const (2 * k)
  refine h.congr_deriv ?_
  field_simp

theorem bessel_term {c x y q : ℝ} (hc : 0 < c) (hx : 0 < x) (hy : 0 < y) (m : ℕ) :
    c * exp (-c * (y + x)) * (x / y) ^ (q / 2) *
      ((2 * c * √(x * y) / 2) ^ (2 * m + q) / (m ! * Gamma (m + q + 1))) =
    poissonW (c * y) m * (c ^ (q + 1 + m) / Gamma (q + 1 + m) * (x ^ (q + 1 + m - 1) * exp (-(c * x)))) := by
  have e1 : 2 * c * √(x * y) / 2 = c * √(x * y) := by ring
  rw [e1, mul_rpow hc.le (sqrt_nonneg _), sqrt_eq_rpow, ← rpow_mul (by positivity),
    mul_rpow hx.le hy.le, div_rpow hx.le hy.le, show (1 / 2 * (2 * (m : ℝ) + q)) = q / 2 + m by ring,
    rpow_add hy, rpow_add hx, show q + 1 + (m : ℝ) - 1 = q / 2 + (q / 2 + m) by ring, rpow_add hx,
    rpow_add hx, show q + 1 + (m : ℝ) = m + q + 1 by ring,
    show c ^ ((m : ℝ) + q + 1) = c ^ (m : ℝ) * c ^ q * c by
      rw [rpow_add hc, rpow_add hc, rpow_one],
    show c ^ (2 * (m : ℝ) + q) = c ^ (m : ℝ) * c ^ (m : ℝ) * c ^ q by
      rw [← rpow_add hc, ← rpow_add hc]; congr 1; ring,
    show exp (-c * (y + x)) = exp (-(c * y)) * exp (-(c * x)) by rw [← exp_add]; congr 1; ring]
  unfold poissonW
  rw [mul_pow, ← rpow_natCast c m, ← rpow_natCast y m]
  have : y ^ (q / 2) ≠ 0 := (rpow_pos_of_pos hy _).ne'
  field_simp

/-- The density is a mixture of gamma densities. -/
theorem cirPdf_eq {theta k xi t x0 x : ℝ} (hk : k ≠ 0) (hxi : xi ≠ 0) (ht : 0 < t) (hx0 : 0 < x0)
    (hx : 0 < x) :
    cirPdf x0 theta k xi t x = some (ncGamma (2 * k * theta / xi ^ 2) (1 / cirH k xi t)
      (1 / cirH k xi t * (x0 * exp (-k * t))) x) := by
  unfold cirPdf
  simp only
  rw [if_neg (by rintro (h | h) <;> linarith), cirC_eq hxi]
  have hc : 0 < 1 / cirH k xi t := one_div_pos.2 (cirH_pos hk hxi ht)
  have hy : 0 < x0 * exp (-k * t) := by positivity
  congr 1
  unfold besselI ncGamma
  rw [← tsum_mul_left, mul_assoc x]
  refine tsum_congr fun m => ?_
  rw [bessel_term hc hx hy, show xi * xi = xi ^ 2 by ring, sub_add_cancel]

theorem isCirPdf_eq {theta k xi : ℝ} {p : ℝ → ℝ → ℝ → ℝ} (hp : IsCirPdf theta k xi p) (hk : k ≠ 0)
    (hxi : xi ≠ 0) {t x0 x : ℝ} (ht : 0 < t) (hx0 : 0 < x0) (hx : 0 < x) :
    p t x0 x = ncGamma (2 * k * theta / xi ^ 2) (1 / cirH k xi t)
      (1 / cirH k xi t * (x0 * exp (-k * t))) x := by
  have h := hp t ht x0 hx0 x hx
  rw [cirPdf_eq hk hxi ht hx0 hx] at h
  exact (Option.some.inj h).symm

/-- Laplace transform of the density. -/
theorem cir_laplace {theta k xi : ℝ} {p : ℝ → ℝ → ℝ → ℝ} (hp : IsCirPdf theta k xi p)
    (hkt : 0 < k * theta) (hxi : xi ≠ 0) {t y s : ℝ} (ht : 0 < t) (hy : 0 < y) (hs : 0 ≤ s) :
    ∫ x in Ioi 0, exp (-(s * x)) * p t y x =
      (1 + s * cirH k xi t) ^ (-(2 * k * theta / xi ^ 2)) *
        exp (-(s * exp (-k * t) / (1 + s * cirH k xi t)) * y) := by
  have hk : k ≠ 0 := by rintro rfl; simp at hkt
  have hh := cirH_pos hk hxi ht
  set h := cirH k xi t with hdef
  have hc : 0 < 1 / h := one_div_pos.2 hh
  have ha : 0 < 2 * k * theta / xi ^ 2 := div_pos (by nlinarith) (by positivity)
  have h1 := ncGamma_laplace ha hc (l := 1 / h * (y * exp (-k * t))) (by positivity)
    (s := s) (by positivity)
  rw [setIntegral_congr_fun measurableSet_Ioi (g := fun x => exp (-(s * x)) *
    ncGamma (2 * k * theta / xi ^ 2) (1 / h) (1 / h * (y * exp (-k * t))) x)
    fun x hx => by simp only; rw [isCirPdf_eq hp hk hxi ht hy hx], h1]
  have e1 : 1 / h / (1 / h + s) = (1 + s * h)⁻¹ := by
    have : 1 + s * h ≠ 0 := by positivity
    have : 1 / h + s ≠ 0 := by positivity
    field_simp
  have e2 : 1 / h * (y * exp (-k * t)) * s / (1 / h + s) = s * exp (-k * t) / (1 + s * h) * y := by
    have : 1 + s * h ≠ 0 := by positivity
    have : 1 / h + s ≠ 0 := by positivity
    field_simp
  rw [e1, e2, inv_rpow (by positivity), rpow_neg (by positivity), ← neg_mul]

/-! ### C62 -/

/-- `cir_pdf` is a probability density on the positive half line. -/
theorem C62_density {theta k xi : ℝ} {p : ℝ → ℝ → ℝ → ℝ} (hp : IsCirPdf theta k xi p)
    (hkt : 0 < k * theta) (hxi : xi ≠ 0) {t x0 : ℝ} (ht : 0 < t) (hx0 : 0 < x0) :
    (∀ x > 0, 0 ≤ p t x0 x) ∧ IntegrableOn (p t x0) (Ioi 0) ∧ ∫ x in Ioi 0, p t x0 x = 1 := by
  have hk : k ≠ 0 := by rintro rfl; simp at hkt
  have hc : 0 < 1 / cirH k xi t := one_div_pos.2 (cirH_pos hk hxi ht)
  have ha : 0 < 2 * k * theta / xi ^ 2 := div_pos (by nlinarith) (by positivity)
  have hl : 0 ≤ 1 / cirH k xi t * (x0 * exp (-k * t)) := by positivity
  refine ⟨fun x hx => ?_, ?_, ?_⟩
  · rw [isCirPdf_eq hp hk hxi ht hx0 hx]
    exact ncGamma_nonneg ha hc hl hx
  · refine (ncGamma_integrable ha hc hl).1.congr_fun (fun x hx => ?_) measurableSet_Ioi
    exact (isCirPdf_eq hp hk hxi ht hx0 hx).symm
  · rw [setIntegral_congr_fun measurableSet_Ioi fun x hx => isCirPdf_eq hp hk hxi ht hx0 hx]
    exact ncGamma_mass ha hc hl

/-- Its mean and variance are `cir_mean` and `cir_var`. -/
theorem C62_moments {theta k xi : ℝ} {p : ℝ → ℝ → ℝ → ℝ} (hp : IsCirPdf theta k xi p)
    (hkt : 0 < k * theta) (hxi : xi ≠ 0) {t x0 : ℝ} (ht : 0 < t) (hx0 : 0 < x0) :
    ∫ x in Ioi 0, x * p t x0 x = cirMean x0 theta k xi t ∧
    ∫ x in Ioi 0, (x - cirMean x0 theta k xi t) ^ 2 * p t x0 x = cirVar x0 theta k xi t := by
  have hk : k ≠ 0 := by rintro rfl; simp at hkt
  have hh := cirH_pos hk hxi ht
  have hc : 0 < 1 / cirH k xi t := one_div_pos.2 hh
  have ha : 0 < 2 * k * theta / xi ^ 2 := div_pos (by nlinarith) (by positivity)
  have hl : 0 ≤ 1 / cirH k xi t * (x0 * exp (-k * t)) := by positivity
  obtain ⟨i0, i1, i2⟩ := ncGamma_integrable ha hc hl
  have hm := ncGamma_mean ha hc hl
  have em : (2 * k * theta / xi ^ 2 + 1 / cirH k xi t * (x0 * exp (-k * t))) / (1 / cirH k xi t) =
      cirMean x0 theta k xi t := by
    rw [div_div_eq_mul_div, div_one, add_mul, mul_right_comm (1 / _), one_div_mul_cancel hh.ne', one_mul]
    unfold cirH cirMean
    simp only
    field_simp
    ring
  rw [em] at hm
  have hq := fun x (hx : x ∈ Ioi (0 : ℝ)) => isCirPdf_eq hp hk hxi ht hx0 (x := x) hx
  refine ⟨?_, ?_⟩
  · rw [setIntegral_congr_fun measurableSet_Ioi fun x hx => by rw [hq x hx]]
    exact hm
  · set m := cirMean x0 theta k xi t with hmdef
    rw [setIntegral_congr_fun measurableSet_Ioi (g := fun x =>
      (x ^ 2 * ncGamma (2 * k * theta / xi ^ 2) (1 / cirH k xi t)
        (1 / cirH k xi t * (x0 * exp (-k * t))) x -
      2 * m * (x * ncGamma (2 * k * theta / xi ^ 2) (1 / cirH k xi t)
        (1 / cirH k xi t * (x0 * exp (-k * t))) x)) +
      m ^ 2 * ncGamma (2 * k * theta / xi ^ 2) (1 / cirH k xi t)
        (1 / cirH k xi t * (x0 * exp (-k * t))) x) fun x hx => by simp only; rw [hq x hx]; ring]
    rw [integral_add (f := fun x => x ^ 2 * ncGamma (2 * k * theta / xi ^ 2) (1 / cirH k xi t)
        (1 / cirH k xi t * (x0 * exp (-k * t))) x -
      2 * m * (x * ncGamma (2 * k * theta / xi ^ 2) (1 / cirH k xi t)
        (1 / cirH k xi t * (x0 * exp (-k * t))) x)) (Integrable.sub (μ := volume.restrict (Ioi 0)) i2 (i1.const_mul (2 * m)))
        (i0.const_mul (m ^ 2)),
      integral_sub i2 (i1.const_mul (2 * m)), integral_const_mul, integral_const_mul, hm,
      ncGamma_mass ha hc hl, ncGamma_second ha hc hl]
    have em' := em
    set A := 2 * k * theta / xi ^ 2 with hA
    set h := cirH k xi t with hhdef
    have e1 : m = A * h + x0 * exp (-k * t) := by
      rw [← em']; field_simp
    have e2 : (A * (A + 1) + 2 * (A + 1) * (1 / h * (x0 * exp (-k * t))) +
        (1 / h * (x0 * exp (-k * t))) ^ 2) / (1 / h) ^ 2 =
        m ^ 2 + h * (A * h + 2 * (x0 * exp (-k * t))) := by
      rw [e1]; field_simp; ring
    rw [e2]
    have e3 : h * (A * h + 2 * (x0 * exp (-k * t))) = cirVar x0 theta k xi t := by
      rw [hA, hhdef]
      unfold cirH cirVar
      simp only
      field_simp
      ring
    rw [e3]
    ring

/-- Its Laplace transform, as a function of time and of the initial value, solves the backward equation
of the process. -/
theorem C62_backward {theta k xi : ℝ} {p : ℝ → ℝ → ℝ → ℝ} (hp : IsCirPdf theta k xi p)
    (hkt : 0 < k * theta) (hxi : xi ≠ 0) {t y s : ℝ} (ht : 0 < t) (hy : 0 < y) (hs : 0 ≤ s) :
    CirBackward theta k xi (fun t y => ∫ x in Ioi 0, exp (-(s * x)) * p t y x) t y := by
  have hk : k ≠ 0 := by rintro rfl; simp at hkt
  set A := 2 * k * theta / xi ^ 2 with hA
  let B : ℝ → ℝ := fun t => -(s * exp (-k * t) / (1 + s * cirH k xi t))
  let C : ℝ → ℝ := fun t => (1 + s * cirH k xi t) ^ (-A)
  have hf : ∀ t > 0, ∀ y > 0, ∫ x in Ioi 0, exp (-(s * x)) * p t y x = C t * exp (B t * y) :=
    fun t ht y hy => cir_laplace hp hkt hxi ht hy hs
  have hpos : 0 < 1 + s * cirH k xi t := by
    have := cirH_pos hk hxi ht
    positivity
  have hH := cirH_deriv (xi := xi) hk t
  have hD : HasDerivAt (fun t => 1 + s * cirH k xi t) (s * (xi ^ 2 / 2 * exp (-k * t))) t :=
    (hH.const_mul s).const_add 1
  have h1 : HasDerivAt (fun t : ℝ => -k * t) (-k) t := by
    simpa using (hasDerivAt_id t).const_mul (-k)
  have hB : HasDerivAt B (-k * B t + xi ^ 2 / 2 * B t ^ 2) t := by
    have h2 := (((h1.exp).const_mul s).div hD hpos.ne').neg
    refine h2.congr_deriv ?_
    simp only [B]
    field_simp
    ring
  have hC : HasDerivAt C (k * theta * B t * C t) t := by
    have h2 := hD.rpow_const (p := -A) (Or.inl hpos.ne')
    refine h2.congr_deriv ?_
    simp only [B, C]
    rw [rpow_sub_one hpos.ne', hA]
    field_simp
  refine ⟨(k * theta * B t * C t) * exp (B t * y) + C t * (exp (B t * y) *
      ((-k * B t + xi ^ 2 / 2 * B t ^ 2) * y)), fun y => B t * (C t * exp (B t * y)),
    fun y => B t * (B t * (C t * exp (B t * y))), ?_, ?_, ?_, ?_⟩
  · refine (hC.mul ((hB.mul_const y).exp)).congr_of_eventuallyEq ?_
    filter_upwards [lt_mem_nhds ht] with t' ht'
    exact hf t' ht' y hy
  · intro y' hy'
    have h3 : HasDerivAt (fun y : ℝ => B t * y) (B t) y' := by
      simpa using (hasDerivAt_id y').const_mul (B t)
    refine ((h3.exp.const_mul (C t)).congr_of_eventuallyEq ?_).congr_deriv (by ring)
    filter_upwards [lt_mem_nhds hy'] with y'' hy''
    exact hf t ht y'' hy''
  · intro y' _
    have h3 : HasDerivAt (fun y : ℝ => B t * y) (B t) y' := by
      simpa using (hasDerivAt_id y').const_mul (B t)
    exact ((h3.exp.const_mul (C t)).const_mul (B t)).congr_deriv (by ring)
  · ring

/-- At time zero, the process is at its initial value. -/
theorem C62_initial {theta k xi : ℝ} {p : ℝ → ℝ → ℝ → ℝ} (hp : IsCirPdf theta k xi p)
    (hkt : 0 < k * theta) (hxi : xi ≠ 0) {y s : ℝ} (hy : 0 < y) (hs : 0 ≤ s) :
    Tendsto (fun t => ∫ x in Ioi 0, exp (-(s * x)) * p t y x) (𝓝[>] 0) (𝓝 (exp (-(s * y)))) := by
  have hk : k ≠ 0 := by rintro rfl; simp at hkt
  have hH : ContinuousAt (cirH k xi) 0 := (cirH_deriv hk 0).continuousAt
  have h0 : cirH k xi 0 = 0 := by simp [cirH]
  have hc : ContinuousAt (fun t => (1 + s * cirH k xi t) ^ (-(2 * k * theta / xi ^ 2)) *
        exp (-(s * exp (-k * t) / (1 + s * cirH k xi t)) * y)) 0 := by
    have hD : ContinuousAt (fun t => 1 + s * cirH k xi t) 0 := by fun_prop
    have hne : 1 + s * cirH k xi 0 ≠ 0 := by simp [h0]
    refine (hD.rpow_const (Or.inl hne)).mul ?_
    refine continuous_exp.continuousAt.comp ?_
    refine ((ContinuousAt.div ?_ hD hne).neg).mul continuousAt_const
    fun_prop
  have h := hc.tendsto
  simp only [h0, mul_zero, add_zero, one_rpow, one_mul, exp_zero, mul_one, div_one, neg_mul] at h
  refine (h.mono_left nhdsWithin_le_nhds).congr' ?_
  filter_upwards [self_mem_nhdsWithin] with t ht
  rw [cir_laplace hp hkt hxi ht hy hs, neg_mul, neg_mul]

/-- For negative values, which the process never takes, the result is NaN, not zero. -/
theorem C62_negative_false (x0 theta k xi t : ℝ) {x : ℝ} (hx : x < 0) : cirPdf x0 theta k xi t x ≠ some 0 := by
  unfold cirPdf
  simp only
  rw [if_pos (Or.inl hx)]
  simp

/-- The function `p` of the theorems above exists. -/
example (theta k xi : ℝ) : ∃ p, IsCirPdf theta k xi p := by
  refine ⟨fun t x0 x => (cirPdf x0 theta k xi t x).getD 0, fun t _ x0 _ x hx => ?_⟩
  simp only [cirPdf]
  rw [if_neg (by rintro (h | h) <;> linarith)]
  simp

example {p : ℝ → ℝ → ℝ → ℝ} (hp : IsCirPdf 0.5 2 0.25 p) : ∫ x in Ioi 0, p 3 1.5 x = 1 :=
  (C62_density hp (by norm_num) (by norm_num) (by norm_num) (by norm_num)).2.2

example {p : ℝ → ℝ → ℝ → ℝ} (hp : IsCirPdf 0.5 2 0.25 p) :
    CirBackward 0.5 2 0.25 (fun t y => ∫ x in Ioi 0, exp (-(4 * x)) * p t y x) 3 1.5 :=
  C62_backward hp (by norm_num) (by norm_num) (by norm_num) (by norm_num) (by norm_num)

end Sdepy
