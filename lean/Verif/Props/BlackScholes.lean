import Verif.Model.Analytical
import Mathlib.Analysis.SpecialFunctions.ExpDeriv
import Mathlib.Analysis.SpecialFunctions.Log.Deriv

/-!
# Black-Scholes formulae (C55, C56)
-/

namespace Sdepy
namespace Spec
end Spec
open Spec Real MeasureTheory ProbabilityTheory Set Filter Topology

/-! ### lemmas -/

theorem npNormCdf_coe (x : ℝ) : npNormCdf (x : EReal) = normCdf x := by
  unfold npNormCdf
  rw [if_neg (EReal.coe_ne_bot x), if_neg (EReal.coe_ne_top x), EReal.toReal_coe]

theorem npNormCdf_top : npNormCdf ⊤ = 1 := by
  unfold npNormCdf
  rw [if_neg (by simp), if_pos rfl]

theorem npNormCdf_bot : npNormCdf ⊥ = 0 := by
  unfold npNormCdf
  rw [if_pos rfl]

theorem npNormCdf_neg (x : EReal) : npNormCdf (-x) = 1 - npNormCdf x := by
  induction x with
  | bot => rw [EReal.neg_bot, npNormCdf_top, npNormCdf_bot, sub_zero]
  | top => rw [EReal.neg_top, npNormCdf_top, npNormCdf_bot, sub_self]
  | coe x => rw [← EReal.coe_neg, npNormCdf_coe, npNormCdf_coe, normCdf_neg]

theorem npNormCdf_mem (x : EReal) : 0 ≤ npNormCdf x ∧ npNormCdf x ≤ 1 := by
  induction x with
  | bot => rw [npNormCdf_bot]; norm_num
  | top => rw [npNormCdf_top]; norm_num
  | coe x => rw [npNormCdf_coe]; exact ⟨(normCdf_pos x).le, (normCdf_lt_one x).le⟩

theorem normPdf_shift (B z : ℝ) : normPdf z * exp (B * z - B ^ 2 / 2) = normPdf (z - B) := by
  unfold normPdf
  rw [div_mul_eq_mul_div, ← exp_add]
  congr 2
  ring

theorem integral_stdNormal (f : ℝ → ℝ) :
    ∫ z, f z ∂gaussianReal 0 1 = ∫ z, normPdf z * f z := by
  rw [integral_gaussianReal_eq_integral_smul one_ne_zero]
  simp only [smul_eq_mul, ← normPdf_eq]

/-- Expected payoff of a put on a lognormal variate. -/
theorem put_integral {C k B : ℝ} (hC : 0 < C) (hk : 0 < k) (hB : 0 < B) :
    ∫ z, max (k - C * exp (B * z - B ^ 2 / 2)) 0 ∂gaussianReal 0 1 =
      k * normCdf (-((log (C / k) + B ^ 2 / 2) / B - B)) -
      C * normCdf (-((log (C / k) + B ^ 2 / 2) / B)) := by
  set d := (log (C / k) + B ^ 2 / 2) / B with hd
  have hdB : d * B = log (C / k) + B ^ 2 / 2 := by rw [hd]; field_simp
  rw [integral_stdNormal]
  have hpt : ∀ z, normPdf z * max (k - C * exp (B * z - B ^ 2 / 2)) 0 =
      (Iic (-(d - B))).indicator (fun z => k * normPdf z - C * normPdf (z - B)) z := by
    intro z
    have hz : C * exp (B * z - B ^ 2 / 2) = k * exp (B * (z + (d - B))) := by
      have : C = k * exp (log (C / k)) := by
        rw [exp_log (by positivity)]; field_simp
      rw [this, mul_assoc, ← exp_add]
      congr 2
      nlinarith
    by_cases h : z ∈ Iic (-(d - B))
    · rw [indicator_of_mem h]
      have h' : z + (d - B) ≤ 0 := by simp only [mem_Iic] at h; linarith
      have : exp (B * (z + (d - B))) ≤ 1 := by rw [exp_le_one_iff]; nlinarith
      rw [max_eq_left (by rw [hz]; nlinarith), ← normPdf_shift]
      ring
    · rw [indicator_of_notMem h]
      have h' : 0 < z + (d - B) := by simp only [mem_Iic, not_le] at h; linarith
      have : 1 ≤ exp (B * (z + (d - B))) := by rw [one_le_exp_iff]; positivity
      rw [max_eq_right (by rw [hz]; nlinarith), mul_zero]
  simp only [hpt]
  rw [integral_indicator measurableSet_Iic, integral_sub, integral_const_mul, integral_const_mul]
  · have h1 := integral_Iic_normPdf_affine B one_pos (-(d - B))
    simp only [div_one] at h1
    rw [h1]
    have e : -(d - B) - B = -d := by ring
    rw [e]
    rfl
  · exact (integrable_normPdf.const_mul k).integrableOn
  · refine Integrable.integrableOn (Integrable.const_mul ?_ C)
    exact integrable_normPdf.comp_sub_right B

theorem integrable_lognormal (C B : ℝ) :
    Integrable (fun z => C * exp (B * z - B ^ 2 / 2)) (gaussianReal 0 1) := by
  have := (integrable_exp_mul_gaussianReal (μ := 0) (v := 1) B).const_mul (C * exp (-(B ^ 2 / 2)))
  refine this.congr (Eventually.of_forall fun z => ?_)
  simp only
  rw [mul_assoc, ← exp_add]
  congr 2; ring

theorem integral_lognormal (C B : ℝ) :
    ∫ z, C * exp (B * z - B ^ 2 / 2) ∂gaussianReal 0 1 = C := by
  have h := congrFun (mgf_id_gaussianReal (μ := 0) (v := 1)) B
  simp only [mgf, id] at h
  have e : ∀ z, C * exp (B * z - B ^ 2 / 2) = C * exp (-(B ^ 2 / 2)) * exp (B * z) := by
    intro z; rw [mul_assoc, ← exp_add]; congr 2; ring
  simp only [e]
  rw [integral_const_mul, h, mul_assoc, ← exp_add]
  simp

theorem max_parity (a b : ℝ) : max (a - b) 0 = max (b - a) 0 + a - b := by
  rcases le_total a b with h | h
  · rw [max_eq_right (by linarith), max_eq_left (by linarith)]; ring
  · rw [max_eq_left (by linarith), max_eq_right (by linarith)]; ring

theorem integrable_put (C k B : ℝ) :
    Integrable (fun z => max (k - C * exp (B * z - B ^ 2 / 2)) 0) (gaussianReal 0 1) :=
  ((integrable_const k).sub (integrable_lognormal C B)).pos_part

/-- The law of `x(t)`, for `dx = (r - q)*x*dt + sigma*x*dw` and `x(0) = x0`: expectation of `f(x(t))`,
where `w` at time `t` is normal with variance `t`. -/
noncomputable def Spec.expected (t x0 r q sigma : ℝ) (f : ℝ → ℝ) : ℝ :=
  ∫ w, f (x0 * exp ((r - q - sigma ^ 2 / 2) * t + sigma * w)) ∂gaussianReal 0 t.toNNReal

theorem expected_eq {t x0 r q sigma : ℝ} (ht : 0 ≤ t) {f : ℝ → ℝ} (hf : Measurable f) :
    expected t x0 r q sigma f = ∫ z, f (x0 * exp ((r - q) * t) *
      exp (sigma * √t * z - (sigma * √t) ^ 2 / 2)) ∂gaussianReal 0 1 := by
  unfold expected
  have hm := gaussianReal_map_const_mul (μ := 0) (v := 1) (√t)
  have hv : NNReal.mk (√t ^ 2) (sq_nonneg _) * 1 = t.toNNReal := by
    rw [mul_one]; ext; simp [sq_sqrt ht, ht]
  rw [mul_zero, hv] at hm
  rw [← hm, integral_map (by fun_prop)]
  · refine integral_congr_ae (Eventually.of_forall fun z => ?_)
    simp only
    rw [mul_assoc x0, ← exp_add]
    congr 3
    have := sq_sqrt ht
    linear_combination (sigma ^ 2 / 2) * this
  · exact (hf.comp (by fun_prop)).aestronglyMeasurable

/-- `d1` and `d2` in the regular case. -/
theorem bsd1d2_of_ne {k t x0 r q sigma : ℝ} (hB : sigma * √t ≠ 0) :
    bsd1d2 k t x0 r q sigma =
      ((((log (x0 / k) + (r - q + 0.5 * sigma ^ 2) * t) / (sigma * √t) : ℝ) : EReal),
       (((log (x0 / k) + (r - q + 0.5 * sigma ^ 2) * t) / (sigma * √t) - sigma * √t : ℝ) : EReal)) := by
  unfold bsd1d2
  simp only [if_neg hB]
  rw [EReal.coe_sub]

/-- `d1` and `d2` in the limiting cases are equal. -/
theorem bsd1d2_of_eq {k t x0 r q sigma : ℝ} (hB : sigma * √t = 0) :
    bsd1d2 k t x0 r q sigma =
      (if log (x0 / k) + (r - q + 0.5 * sigma ^ 2) * t = 0 then 0 else
        if 0 < log (x0 / k) + (r - q + 0.5 * sigma ^ 2) * t then ⊤ else ⊥,
       if log (x0 / k) + (r - q + 0.5 * sigma ^ 2) * t = 0 then 0 else
        if 0 < log (x0 / k) + (r - q + 0.5 * sigma ^ 2) * t then ⊤ else ⊥) := by
  unfold bsd1d2
  simp only [hB, if_true, EReal.coe_zero, sub_zero]

/-- `log(x0/k) + (r - q + sigma**2/2)*t` in terms of the forward price. -/
theorem bsA_eq {k t x0 r q sigma : ℝ} (ht : 0 ≤ t) (hk : 0 < k) (hx : 0 < x0) :
    log (x0 / k) + (r - q + 0.5 * sigma ^ 2) * t =
      log (x0 * exp ((r - q) * t) / k) + (sigma * √t) ^ 2 / 2 := by
  have : x0 * exp ((r - q) * t) / k = x0 / k * exp ((r - q) * t) := by ring
  rw [this, log_mul (by positivity) (exp_ne_zero _), log_exp, mul_pow, sq_sqrt ht]
  ring

theorem discount {t r q : ℝ} : exp (-r * t) * exp ((r - q) * t) = exp (-q * t) := by
  rw [← exp_add]; congr 1; ring

/-! ### C55: parity -/

/-- Put-call parity, whatever the parameters. -/
theorem C55_parity (k t x0 r q sigma : ℝ) :
    bscall k t x0 r q sigma - bsput k t x0 r q sigma = x0 * exp (-q * t) - k * exp (-r * t) := by
  simp only [bscall, bsput, npNormCdf_neg]
  ring

/-- Parity of deltas. -/
theorem C55_delta_parity (k t x0 r q sigma : ℝ) :
    bscallDelta k t x0 r q sigma - bsputDelta k t x0 r q sigma = exp (-q * t) := by
  simp only [bscallDelta, bsputDelta, npNormCdf_neg]
  ring

/-! ### C56 -/

/-- The put is the discounted expectation of `max(k - x(t), 0)`. -/
theorem C56_put {k t x0 sigma : ℝ} (r q : ℝ) (hk : 0 < k) (hx : 0 < x0) (ht : 0 ≤ t)
    (hs : 0 ≤ sigma) :
    bsput k t x0 r q sigma = exp (-r * t) * expected t x0 r q sigma fun x => max (k - x) 0 := by
  rw [expected_eq ht (by fun_prop)]
  set C := x0 * exp ((r - q) * t) with hC
  have hCpos : 0 < C := by positivity
  have hfwd : exp (-r * t) * C = x0 * exp (-q * t) := by
    rw [hC, ← discount (r := r) (q := q)]; ring
  have hB0 : 0 ≤ sigma * √t := by positivity
  rcases hB0.eq_or_lt with hB | hB
  · rw [← hB]
    unfold bsput
    simp only [bsd1d2_of_eq hB.symm, npNormCdf_neg]
    rw [bsA_eq ht hk hx, ← hB, ← hC]
    simp only [zero_mul, ne_eq, OfNat.ofNat_ne_zero, not_false_eq_true, zero_pow, zero_div, sub_self,
      exp_zero, mul_one, add_zero, integral_const, probReal_univ, smul_eq_mul, one_mul]
    have hlog : ∀ {a : ℝ}, 0 < a → (log (a / k) = 0 ↔ a = k) ∧ (0 < log (a / k) ↔ k < a) := by
      intro a ha
      have hak : 0 < a / k := by positivity
      refine ⟨?_, ?_⟩
      · rw [log_eq_zero]
        constructor
        · rintro (h | h | h)
          · exact absurd h hak.ne'
          · field_simp at h; exact h
          · linarith
        · intro h; right; left; rw [h]; field_simp
      · rw [log_pos_iff hak.le, lt_div_iff₀ hk, one_mul]
    obtain ⟨l1, l2⟩ := hlog hCpos
    by_cases h1 : log (C / k) = 0
    · rw [if_pos h1, l1.1 h1, sub_self, max_self]
      have : npNormCdf 0 = 1 / 2 := by
        have := npNormCdf_coe 0
        rw [normCdf_zero] at this
        exact_mod_cast this
      rw [this]
      have e := l1.1 h1
      rw [e] at hfwd
      rw [← hfwd]; ring
    · rw [if_neg h1]
      by_cases h2 : 0 < log (C / k)
      · rw [if_pos h2, npNormCdf_top, max_eq_right (by have := l2.1 h2; linarith)]
        ring
      · rw [if_neg h2, npNormCdf_bot, max_eq_left (by
          have : ¬ k < C := fun h => h2 (l2.2 h)
          linarith)]
        rw [← hfwd]; ring
  · rw [put_integral hCpos hk hB]
    unfold bsput
    simp only [bsd1d2_of_ne hB.ne', ← EReal.coe_neg, npNormCdf_coe]
    rw [bsA_eq ht hk hx, ← hC, mul_sub, ← mul_assoc, ← mul_assoc, hfwd]
    ring

/-- The call is the discounted expectation of `max(x(t) - k, 0)`. -/
theorem C56_call {k t x0 sigma : ℝ} (r q : ℝ) (hk : 0 < k) (hx : 0 < x0) (ht : 0 ≤ t)
    (hs : 0 ≤ sigma) :
    bscall k t x0 r q sigma = exp (-r * t) * expected t x0 r q sigma fun x => max (x - k) 0 := by
  have hpar := C55_parity k t x0 r q sigma
  have hput := C56_put r q hk hx ht hs
  rw [expected_eq ht (by fun_prop)] at hput ⊢
  have hpt : ∀ z, max (x0 * exp ((r - q) * t) * exp (sigma * √t * z - (sigma * √t) ^ 2 / 2) - k) 0 =
      max (k - x0 * exp ((r - q) * t) * exp (sigma * √t * z - (sigma * √t) ^ 2 / 2)) 0 +
      (x0 * exp ((r - q) * t) * exp (sigma * √t * z - (sigma * √t) ^ 2 / 2) - k) := by
    intro z; rw [max_parity]; ring
  simp only [hpt]
  rw [integral_add (integrable_put _ _ _) (by
    exact (integrable_lognormal _ _).sub (integrable_const k)), integral_sub (integrable_lognormal _ _)
    (integrable_const k), integral_lognormal, integral_const, probReal_univ, one_smul, mul_add,
    ← hput]
  have := discount (t := t) (r := r) (q := q)
  have : exp (-r * t) * (x0 * exp ((r - q) * t) - k) = x0 * exp (-q * t) - k * exp (-r * t) := by
    linear_combination x0 * this
  rw [this, ← hpar]
  ring

/-- The expectation of the underlying security grows at the rate `r - q`. -/
theorem C56_forward {t : ℝ} (x0 r q sigma : ℝ) (ht : 0 ≤ t) :
    expected t x0 r q sigma (fun x => x) = x0 * exp ((r - q) * t) := by
  rw [expected_eq ht (f := fun x => x) measurable_id]
  exact integral_lognormal _ _

/-! ### C55: bounds -/

/-- No-arbitrage bounds. -/
theorem C55_bounds {k t x0 sigma : ℝ} (r q : ℝ) (hk : 0 < k) (hx : 0 < x0) (ht : 0 ≤ t)
    (hs : 0 ≤ sigma) :
    max (x0 * exp (-q * t) - k * exp (-r * t)) 0 ≤ bscall k t x0 r q sigma ∧
    bscall k t x0 r q sigma ≤ x0 * exp (-q * t) ∧
    max (k * exp (-r * t) - x0 * exp (-q * t)) 0 ≤ bsput k t x0 r q sigma ∧
    bsput k t x0 r q sigma ≤ k * exp (-r * t) := by
  have hpar := C55_parity k t x0 r q sigma
  have hcall : 0 ≤ bscall k t x0 r q sigma := by
    rw [C56_call r q hk hx ht hs]
    exact mul_nonneg (exp_pos _).le (integral_nonneg fun w => le_max_right _ _)
  have hput : 0 ≤ bsput k t x0 r q sigma := by
    rw [C56_put r q hk hx ht hs]
    exact mul_nonneg (exp_pos _).le (integral_nonneg fun w => le_max_right _ _)
  refine ⟨max_le (by linarith) hcall, ?_, max_le (by linarith) hput, ?_⟩
  · unfold bscall
    obtain ⟨a1, a2⟩ := npNormCdf_mem (bsd1d2 k t x0 r q sigma).1
    obtain ⟨b1, b2⟩ := npNormCdf_mem (bsd1d2 k t x0 r q sigma).2
    have h1 : 0 < x0 * exp (-q * t) := by positivity
    have h2 : 0 < k * exp (-r * t) := by positivity
    simp only
    nlinarith
  · unfold bsput
    obtain ⟨a1, a2⟩ := npNormCdf_mem (-(bsd1d2 k t x0 r q sigma).1)
    obtain ⟨b1, b2⟩ := npNormCdf_mem (-(bsd1d2 k t x0 r q sigma).2)
    have h1 : 0 < x0 * exp (-q * t) := by positivity
    have h2 : 0 < k * exp (-r * t) := by positivity
    simp only
    nlinarith

/-! ### C55: limiting cases -/

theorem bs_intrinsic {k t x0 sigma : ℝ} (r q : ℝ) (hk : 0 < k) (hx : 0 < x0) (ht : 0 ≤ t)
    (hs : 0 ≤ sigma) (hB : sigma * √t = 0) :
    bscall k t x0 r q sigma = max (x0 * exp (-q * t) - k * exp (-r * t)) 0 ∧
    bsput k t x0 r q sigma = max (k * exp (-r * t) - x0 * exp (-q * t)) 0 := by
  have h : ∀ a : ℝ, exp (-r * t) * max a 0 = max (exp (-r * t) * a) 0 := by
    intro a; rw [mul_max_of_nonneg _ _ (exp_pos _).le, mul_zero]
  have hd := discount (t := t) (r := r) (q := q)
  constructor
  · rw [C56_call r q hk hx ht hs, expected_eq ht (by fun_prop), hB]
    simp only [zero_mul, ne_eq, OfNat.ofNat_ne_zero, not_false_eq_true, zero_pow, zero_div, sub_self,
      exp_zero, mul_one, integral_const, probReal_univ, smul_eq_mul, one_mul, h]
    congr 1
    linear_combination x0 * hd
  · rw [C56_put r q hk hx ht hs, expected_eq ht (by fun_prop), hB]
    simp only [zero_mul, ne_eq, OfNat.ofNat_ne_zero, not_false_eq_true, zero_pow, zero_div, sub_self,
      exp_zero, mul_one, integral_const, probReal_univ, smul_eq_mul, one_mul, h]
    congr 1
    linear_combination -x0 * hd

/-- At maturity, prices are the payoffs. -/
theorem C55_maturity {k x0 sigma : ℝ} (r q : ℝ) (hk : 0 < k) (hx : 0 < x0) (hs : 0 ≤ sigma) :
    bscall k 0 x0 r q sigma = max (x0 - k) 0 ∧ bsput k 0 x0 r q sigma = max (k - x0) 0 := by
  have := bs_intrinsic r q hk hx le_rfl hs (t := 0) (by simp)
  simpa using this

/-- With no volatility, prices are the discounted intrinsic values. -/
theorem C55_sigma_zero {k t x0 : ℝ} (r q : ℝ) (hk : 0 < k) (hx : 0 < x0) (ht : 0 ≤ t) :
    bscall k t x0 r q 0 = max (x0 * exp (-q * t) - k * exp (-r * t)) 0 ∧
    bsput k t x0 r q 0 = max (k * exp (-r * t) - x0 * exp (-q * t)) 0 :=
  bs_intrinsic r q hk hx ht le_rfl (by simp)

/-! ### C55: deltas -/

/-- Deltas are the derivatives of the prices with respect to `x0`, unless the volatility or the time to
maturity is zero, and the price of the underlying security is at the kink of the price of the option
(see `C55_kink`). -/
theorem C55_delta {k t x0 sigma : ℝ} (r q : ℝ) (hk : 0 < k) (hx : 0 < x0) (ht : 0 ≤ t)
    (hs : 0 ≤ sigma) (h : (0 < t ∧ 0 < sigma) ∨ x0 * exp (-q * t) ≠ k * exp (-r * t)) :
    HasDerivAt (fun x => bscall k t x r q sigma) (bscallDelta k t x0 r q sigma) x0 ∧
    HasDerivAt (fun x => bsput k t x r q sigma) (bsputDelta k t x0 r q sigma) x0 := by
  have hcall : HasDerivAt (fun x => bscall k t x r q sigma) (bscallDelta k t x0 r q sigma) x0 := by
    have hB0 : 0 ≤ sigma * √t := by positivity
    rcases hB0.eq_or_lt with hB | hB
    · have hne : x0 * exp (-q * t) ≠ k * exp (-r * t) := by
        rcases h with ⟨h1, h2⟩ | h
        · have : 0 < sigma * √t := by positivity
          linarith
        · exact h
      have hA : log (x0 / k) + (r - q + 0.5 * sigma ^ 2) * t =
          log (x0 * exp (-q * t) / (k * exp (-r * t))) := by
        rw [bsA_eq ht hk hx, ← hB]
        have : x0 * exp ((r - q) * t) / k = x0 * exp (-q * t) / (k * exp (-r * t)) := by
          rw [← discount (t := t) (r := r) (q := q)]
          field_simp
        rw [this]; simp
      have hpos : 0 < x0 * exp (-q * t) / (k * exp (-r * t)) := by positivity
      rcases lt_or_gt_of_ne hne with hlt | hgt
      · have hd : bscallDelta k t x0 r q sigma = 0 := by
          unfold bscallDelta
          have hn : log (x0 * exp (-q * t) / (k * exp (-r * t))) < 0 := by
            apply log_neg hpos
            rw [div_lt_one (by positivity)]; exact hlt
          simp only [bsd1d2_of_eq hB.symm, hA]
          rw [if_neg hn.ne, if_neg (not_lt.2 hn.le), npNormCdf_bot, mul_zero]
        rw [hd]
        have hev : (fun x => bscall k t x r q sigma) =ᶠ[𝓝 x0] fun _ => 0 := by
          have h1 : ∀ᶠ x in 𝓝 x0, 0 < x := lt_mem_nhds hx
          have h2 : ∀ᶠ x in 𝓝 x0, x * exp (-q * t) < k * exp (-r * t) :=
            (continuous_id.mul continuous_const).continuousAt.eventually_lt_const hlt
          filter_upwards [h1, h2] with x h1 h2
          rw [(bs_intrinsic r q hk h1 ht hs hB.symm).1, max_eq_right (by linarith)]
        exact (hasDerivAt_const x0 (0 : ℝ)).congr_of_eventuallyEq hev
      · have hd : bscallDelta k t x0 r q sigma = exp (-q * t) := by
          unfold bscallDelta
          have hn : 0 < log (x0 * exp (-q * t) / (k * exp (-r * t))) := by
            apply log_pos
            rw [one_lt_div (by positivity)]; exact hgt
          simp only [bsd1d2_of_eq hB.symm, hA]
          rw [if_neg hn.ne', if_pos hn, npNormCdf_top, mul_one]
        rw [hd]
        have hev : (fun x => bscall k t x r q sigma) =ᶠ[𝓝 x0]
            fun x => x * exp (-q * t) - k * exp (-r * t) := by
          have h1 : ∀ᶠ x in 𝓝 x0, 0 < x := lt_mem_nhds hx
          have h2 : ∀ᶠ x in 𝓝 x0, k * exp (-r * t) < x * exp (-q * t) :=
            (continuous_id.mul continuous_const).continuousAt.eventually_const_lt hgt
          filter_upwards [h1, h2] with x h1 h2
          rw [(bs_intrinsic r q hk h1 ht hs hB.symm).1, max_eq_left (by linarith)]
        have := ((hasDerivAt_id x0).mul_const (exp (-q * t))).sub_const (k * exp (-r * t))
        rw [one_mul] at this
        exact this.congr_of_eventuallyEq hev
    · set B := sigma * √t with hBdef
      set D : ℝ → ℝ := fun x => (log (x / k) + (r - q + 0.5 * sigma ^ 2) * t) / B with hD
      have hfun : (fun x => bscall k t x r q sigma) = fun x =>
          x * exp (-q * t) * normCdf (D x) - k * exp (-r * t) * normCdf (D x - B) := by
        funext x
        unfold bscall
        simp only [bsd1d2_of_ne hB.ne', npNormCdf_coe, hD, hBdef]
      have hdel : bscallDelta k t x0 r q sigma = exp (-q * t) * normCdf (D x0) := by
        unfold bscallDelta
        simp only [bsd1d2_of_ne hB.ne', npNormCdf_coe, hD, hBdef]
      rw [hfun, hdel]
      have hDd : HasDerivAt D (1 / (x0 * B)) x0 := by
        have h1 : HasDerivAt (fun x => log (x / k)) (1 / x0) x0 := by
          have := ((hasDerivAt_id x0).div_const k).log (by simp; exact ⟨hx.ne', hk.ne'⟩)
          refine this.congr_deriv ?_
          simp only [id]
          field_simp
        have := (h1.add_const ((r - q + 0.5 * sigma ^ 2) * t)).div_const B
        refine this.congr_deriv ?_
        field_simp
      have hN1 := (hasDerivAt_normCdf (D x0)).comp x0 hDd
      have hN2 := (hasDerivAt_normCdf (D x0 - B)).comp x0 (hDd.sub_const B)
      have h := (((hasDerivAt_id x0).mul_const (exp (-q * t))).mul hN1).sub
        (hN2.const_mul (k * exp (-r * t)))
      refine h.congr_deriv ?_
      have hbr : x0 * exp (-q * t) * normPdf (D x0) = k * exp (-r * t) * normPdf (D x0 - B) := by
        rw [← normPdf_shift B (D x0)]
        have hDB : B * D x0 = log (x0 / k) + (r - q + 0.5 * sigma ^ 2) * t := by
          rw [hD]; field_simp
        have hB2 : B ^ 2 = sigma ^ 2 * t := by rw [hBdef, mul_pow, sq_sqrt ht]
        have : exp (B * D x0 - B ^ 2 / 2) = x0 / k * exp ((r - q) * t) := by
          rw [hDB, hB2]
          have : log (x0 / k) + (r - q + 0.5 * sigma ^ 2) * t - sigma ^ 2 * t / 2 =
            log (x0 / k) + (r - q) * t := by ring
          rw [this, exp_add, exp_log (by positivity)]
        rw [this, ← discount (t := t) (r := r) (q := q)]
        field_simp
      simp only [id, Function.comp]
      linear_combination (1 / (x0 * B)) * hbr
  refine ⟨hcall, ?_⟩
  have hput : (fun x => bsput k t x r q sigma) = fun x =>
      bscall k t x r q sigma - (x * exp (-q * t) - k * exp (-r * t)) := by
    funext x
    have := C55_parity k t x r q sigma
    linarith
  rw [hput]
  have h1 := hcall.sub (((hasDerivAt_id x0).mul_const (exp (-q * t))).sub_const (k * exp (-r * t)))
  refine h1.congr_deriv ?_
  have := C55_delta_parity k t x0 r q sigma
  linarith

theorem not_differentiableAt_kink {a b x0 : ℝ} (ha : 0 < a) (hx : x0 * a = b) :
    ¬ DifferentiableAt ℝ (fun x => max (x * a - b) 0) x0 := by
  intro hda
  have hr : HasDerivWithinAt (fun x : ℝ => max (x * a - b) 0) a (Ici x0) x0 := by
    have : HasDerivWithinAt (fun x : ℝ => x * a - b) (1 * a) (Ici x0) x0 :=
      (((hasDerivAt_id x0).mul_const a).sub_const b).hasDerivWithinAt
    rw [one_mul] at this
    refine this.congr (fun x h => ?_) (by simp [hx])
    rw [max_eq_left]; simp only [mem_Ici] at h; nlinarith
  have hl : HasDerivWithinAt (fun x : ℝ => max (x * a - b) 0) 0 (Iic x0) x0 := by
    have : HasDerivWithinAt (fun _ : ℝ => (0 : ℝ)) 0 (Iic x0) x0 :=
      (hasDerivAt_const x0 (0 : ℝ)).hasDerivWithinAt
    refine this.congr (fun x h => ?_) (by simp [hx])
    rw [max_eq_right]; simp only [mem_Iic] at h; nlinarith
  have e1 := (uniqueDiffWithinAt_Ici x0).eq_deriv _ hr hda.hasDerivAt.hasDerivWithinAt
  have e2 := (uniqueDiffWithinAt_Iic x0).eq_deriv _ hl hda.hasDerivAt.hasDerivWithinAt
  linarith

/-- Where `C55_delta` does not apply, the price has no derivative; there, the delta is half way between
the derivatives on the two sides, `0` and `exp(-q*t)`. -/
theorem C55_kink {k t x0 sigma : ℝ} (r q : ℝ) (hk : 0 < k) (hx : 0 < x0) (ht : 0 ≤ t)
    (hs : 0 ≤ sigma) (hB : t = 0 ∨ sigma = 0) (h : x0 * exp (-q * t) = k * exp (-r * t)) :
    ¬ DifferentiableAt ℝ (fun x => bscall k t x r q sigma) x0 ∧
    ¬ DifferentiableAt ℝ (fun x => bsput k t x r q sigma) x0 ∧
    bscallDelta k t x0 r q sigma = exp (-q * t) / 2 ∧
    bsputDelta k t x0 r q sigma = -(exp (-q * t) / 2) := by
  have hB0 : sigma * √t = 0 := by
    rcases hB with rfl | rfl
    · simp
    · simp
  have hev : (fun x => bscall k t x r q sigma) =ᶠ[𝓝 x0]
      fun x => max (x * exp (-q * t) - k * exp (-r * t)) 0 := by
    filter_upwards [lt_mem_nhds hx] with x hx
    exact (bs_intrinsic r q hk hx ht hs hB0).1
  have hcall : ¬ DifferentiableAt ℝ (fun x => bscall k t x r q sigma) x0 := fun hd =>
    not_differentiableAt_kink (exp_pos (-q * t)) h (hd.congr_of_eventuallyEq hev.symm)
  have hdelta : bscallDelta k t x0 r q sigma = exp (-q * t) / 2 := by
    unfold bscallDelta
    have hA : log (x0 / k) + (r - q + 0.5 * sigma ^ 2) * t = 0 := by
      rw [bsA_eq ht hk hx, hB0]
      have : x0 * exp ((r - q) * t) / k = 1 := by
        rw [div_eq_one_iff_eq hk.ne']
        have h1 := discount (t := t) (r := r) (q := q)
        have h2 : exp (-r * t) ≠ 0 := (exp_pos _).ne'
        apply mul_left_cancel₀ h2
        linear_combination x0 * h1 + h
      rw [this]; simp
    simp only [bsd1d2_of_eq hB0, hA, if_true]
    have : npNormCdf 0 = 1 / 2 := by
      have := npNormCdf_coe 0
      rw [normCdf_zero] at this
      exact_mod_cast this
    rw [this]; ring
  have hdp := C55_delta_parity k t x0 r q sigma
  refine ⟨hcall, fun hd => hcall ?_, hdelta, by linarith⟩
  have hfun : (fun x => bscall k t x r q sigma) = fun x =>
      bsput k t x r q sigma + (x * exp (-q * t) - k * exp (-r * t)) := by
    funext x
    have := C55_parity k t x r q sigma
    linarith
  rw [hfun]
  fun_prop

/-- The limiting cases are limits: prices are continuous functions of `t` and `sigma`, for
nonnegative `t` and `sigma`, zero included. -/
theorem C55_continuous {k x0 : ℝ} (r q : ℝ) (hk : 0 < k) (hx : 0 < x0) :
    ContinuousOn (fun p : ℝ × ℝ => bscall k p.1 x0 r q p.2) {p | 0 ≤ p.1 ∧ 0 ≤ p.2} ∧
    ContinuousOn (fun p : ℝ × ℝ => bsput k p.1 x0 r q p.2) {p | 0 ≤ p.1 ∧ 0 ≤ p.2} := by
  have hput : ContinuousOn (fun p : ℝ × ℝ => bsput k p.1 x0 r q p.2) {p | 0 ≤ p.1 ∧ 0 ≤ p.2} := by
    have hF : Continuous fun p : ℝ × ℝ => exp (-r * p.1) * ∫ z, max (k - x0 * exp ((r - q) * p.1) *
        exp (p.2 * √p.1 * z - (p.2 * √p.1) ^ 2 / 2)) 0 ∂gaussianReal 0 1 := by
      refine Continuous.mul (by fun_prop) ?_
      refine continuous_of_dominated (bound := fun _ => k) (fun p => ?_) (fun p => ?_)
        (integrable_const k) ?_
      · exact Continuous.aestronglyMeasurable (by fun_prop)
      · refine Eventually.of_forall fun z => ?_
        rw [Real.norm_eq_abs, abs_of_nonneg (le_max_right _ _)]
        refine max_le ?_ hk.le
        have : 0 < x0 * exp ((r - q) * p.1) * exp (p.2 * √p.1 * z - (p.2 * √p.1) ^ 2 / 2) := by
          positivity
        linarith
      · exact Eventually.of_forall fun z => by fun_prop
    refine hF.continuousOn.congr fun p hp => ?_
    obtain ⟨h1, h2⟩ := hp
    simp only
    rw [C56_put r q hk hx h1 h2, expected_eq h1 (by fun_prop)]
  refine ⟨?_, hput⟩
  have hfun : (fun p : ℝ × ℝ => bscall k p.1 x0 r q p.2) = fun p =>
      bsput k p.1 x0 r q p.2 + (x0 * exp (-q * p.1) - k * exp (-r * p.1)) := by
    funext p
    have := C55_parity k p.1 x0 r q p.2
    linarith
  rw [hfun]
  exact hput.add (Continuous.continuousOn (by fun_prop))

/-! ### cases meeting the hypotheses -/

/-- A case with positive volatility: a strike of 3, half a year before maturity. -/
example : HasDerivAt (fun x => bscall 3 (1 / 2) x (1 / 20) 0 (1 / 5))
    (bscallDelta 3 (1 / 2) 5 (1 / 20) 0 (1 / 5)) 5 ∧
    bscall 3 (1 / 2) 5 (1 / 20) 0 (1 / 5) =
      exp (-(1 / 20) * (1 / 2)) * expected (1 / 2) 5 (1 / 20) 0 (1 / 5) fun x => max (x - 3) 0 :=
  ⟨(C55_delta (1 / 20) 0 (by norm_num) (by norm_num) (by norm_num) (by norm_num)
      (Or.inl (by norm_num))).1,
   C56_call (1 / 20) 0 (by norm_num) (by norm_num) (by norm_num) (by norm_num)⟩

/-- At maturity, a call of strike 3 on a security worth 5. -/
example : bscall 3 0 5 (1 / 20) 0 (1 / 5) = 2 ∧ bsput 3 0 5 (1 / 20) 0 (1 / 5) = 0 := by
  obtain ⟨h1, h2⟩ := C55_maturity (k := 3) (x0 := 5) (sigma := 1 / 5) (1 / 20) 0 (by norm_num)
    (by norm_num) (by norm_num)
  rw [h1, h2]; norm_num

/-- At maturity, at the strike: the delta of the call is one half. -/
example : bscallDelta 3 0 3 (1 / 20) 0 (1 / 5) = 1 / 2 := by
  rw [(C55_kink (k := 3) (t := 0) (x0 := 3) (sigma := 1 / 5) (1 / 20) 0 (by norm_num)
    (by norm_num) le_rfl (by norm_num) (Or.inl rfl) (by simp)).2.2.1]
  simp

end Sdepy
