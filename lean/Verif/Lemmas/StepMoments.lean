import Verif.Lemmas.Chain
import Mathlib.Probability.Moments.Covariance
import Mathlib.Analysis.Calculus.MeanValue

/-!
# Moments of one step, and the order of convergence of recursions
-/

set_option linter.unusedSectionVars false

open MeasureTheory ProbabilityTheory Real

namespace Sdepy

open Spec

variable {Ω B C : Type} [MeasurableSpace Ω] [MeasurableSpace B] [MeasurableSpace C] {P : Measure Ω}
  [IsProbabilityMeasure P] {Y : Ω → C} {Z : Ω → B}

theorem noise_memLp (hi : IndepFun Y Z P) {g : C → ℝ} {ζ : B → ℝ} (mg : Measurable g)
    (mζ : Measurable ζ) (hg : MemLp (fun ω => g (Y ω)) 2 P) (hζ : MemLp (fun ω => ζ (Z ω)) 2 P) :
    MemLp (fun ω => g (Y ω) * ζ (Z ω)) 2 P := by
  have hm := hg.aestronglyMeasurable.mul hζ.aestronglyMeasurable
  refine (memLp_two_iff_integrable_sq hm).2 ?_
  have h1 := hg.integrable_sq
  have h2 := hζ.integrable_sq
  have := (hi.comp (φ := fun c => g c ^ 2) (ψ := fun b => ζ b ^ 2) (by fun_prop)
    (by fun_prop)).integrable_mul h1 h2
  refine this.congr (Filter.Eventually.of_forall fun ω => ?_)
  simp [mul_pow]

theorem noise_mean (hi : IndepFun Y Z P) {g : C → ℝ} {ζ : B → ℝ} (mg : Measurable g)
    (mζ : Measurable ζ) (hg : MemLp (fun ω => g (Y ω)) 2 P) (hζ : MemLp (fun ω => ζ (Z ω)) 2 P)
    (h0 : ∫ ω, ζ (Z ω) ∂P = 0) : ∫ ω, g (Y ω) * ζ (Z ω) ∂P = 0 := by
  have := (hi.comp mg mζ).integral_fun_mul_eq_mul_integral hg.aestronglyMeasurable
    hζ.aestronglyMeasurable
  simp only [Function.comp_def] at this
  rw [this, h0, mul_zero]

/-- Mean after a step. -/
theorem mean_step (hi : IndepFun Y Z P) {f g : C → ℝ} {ζ : B → ℝ} (mg : Measurable g)
    (mζ : Measurable ζ) (hf : MemLp (fun ω => f (Y ω)) 2 P) (hg : MemLp (fun ω => g (Y ω)) 2 P)
    (hζ : MemLp (fun ω => ζ (Z ω)) 2 P) (h0 : ∫ ω, ζ (Z ω) ∂P = 0) :
    ∫ ω, (f (Y ω) + g (Y ω) * ζ (Z ω)) ∂P = ∫ ω, f (Y ω) ∂P := by
  rw [integral_add (hf.integrable one_le_two) ((noise_memLp hi mg mζ hg hζ).integrable one_le_two),
    noise_mean hi mg mζ hg hζ h0, add_zero]

/-- Covariance after a step. -/
theorem cov_step (hi : IndepFun Y Z P) {f1 f2 g1 g2 : C → ℝ} {ζ1 ζ2 : B → ℝ} (mf1 : Measurable f1)
    (mf2 : Measurable f2) (mg1 : Measurable g1) (mg2 : Measurable g2) (mζ1 : Measurable ζ1)
    (mζ2 : Measurable ζ2) (hf1 : MemLp (fun ω => f1 (Y ω)) 2 P) (hf2 : MemLp (fun ω => f2 (Y ω)) 2 P)
    (hg1 : MemLp (fun ω => g1 (Y ω)) 2 P) (hg2 : MemLp (fun ω => g2 (Y ω)) 2 P)
    (hζ1 : MemLp (fun ω => ζ1 (Z ω)) 2 P) (hζ2 : MemLp (fun ω => ζ2 (Z ω)) 2 P)
    (h1 : ∫ ω, ζ1 (Z ω) ∂P = 0) (h2 : ∫ ω, ζ2 (Z ω) ∂P = 0) :
    cov[fun ω => f1 (Y ω) + g1 (Y ω) * ζ1 (Z ω), fun ω => f2 (Y ω) + g2 (Y ω) * ζ2 (Z ω); P] =
      cov[fun ω => f1 (Y ω), fun ω => f2 (Y ω); P] +
        (∫ ω, g1 (Y ω) * g2 (Y ω) ∂P) * ∫ ω, ζ1 (Z ω) * ζ2 (Z ω) ∂P := by
  have n1 := noise_memLp hi mg1 mζ1 hg1 hζ1
  have n2 := noise_memLp hi mg2 mζ2 hg2 hζ2
  have orth : ∀ {f g : C → ℝ} {ζ : B → ℝ}, Measurable f → Measurable g → Measurable ζ →
      MemLp (fun ω => f (Y ω)) 2 P → MemLp (fun ω => g (Y ω)) 2 P → MemLp (fun ω => ζ (Z ω)) 2 P →
      ∫ ω, ζ (Z ω) ∂P = 0 → cov[fun ω => f (Y ω), fun ω => g (Y ω) * ζ (Z ω); P] = 0 := by
    intro f g ζ mf mg mζ hf hg hζ h0
    rw [covariance_eq_sub hf (noise_memLp hi mg mζ hg hζ), noise_mean hi mg mζ hg hζ h0, mul_zero,
      sub_zero]
    have := (hi.comp (mf.mul mg) mζ).integral_fun_mul_eq_mul_integral
      (hf.aestronglyMeasurable.mul hg.aestronglyMeasurable) hζ.aestronglyMeasurable
    simp only [Function.comp_def] at this
    rw [h0, mul_zero] at this
    rw [← this]
    refine integral_congr_ae (Filter.Eventually.of_forall fun ω => ?_)
    simp [mul_assoc]
  have e1 : (fun ω => f1 (Y ω) + g1 (Y ω) * ζ1 (Z ω)) =
    (fun ω => f1 (Y ω)) + fun ω => g1 (Y ω) * ζ1 (Z ω) := rfl
  have e2 : (fun ω => f2 (Y ω) + g2 (Y ω) * ζ2 (Z ω)) =
    (fun ω => f2 (Y ω)) + fun ω => g2 (Y ω) * ζ2 (Z ω) := rfl
  rw [e1, e2, covariance_add_left hf1 n1 (hf2.add n2), covariance_add_right hf1 hf2 n2,
    covariance_add_right n1 hf2 n2, orth mf1 mg2 mζ2 hf1 hg2 hζ2 h2,
    covariance_comm (fun ω => g1 (Y ω) * ζ1 (Z ω)) (fun ω => f2 (Y ω)),
    orth mf2 mg1 mζ1 hf2 hg1 hζ1 h1, covariance_eq_sub n1 n2, noise_mean hi mg1 mζ1 hg1 hζ1 h1]
  have := (hi.comp (mg1.mul mg2) (mζ1.mul mζ2)).integral_fun_mul_eq_mul_integral
      (hg1.aestronglyMeasurable.mul hg2.aestronglyMeasurable)
      (hζ1.aestronglyMeasurable.mul hζ2.aestronglyMeasurable)
  simp only [Function.comp_def, Pi.mul_apply] at this
  rw [← this]
  simp only [add_zero, zero_add, zero_mul, sub_zero]
  congr 1
  refine integral_congr_ae (Filter.Eventually.of_forall fun ω => ?_)
  simp only [Pi.mul_apply]
  ring

/-- **Order of convergence.** Values that make steps `F(b) = F(a) + (b - a)*G(F(a))`, up to an error
proportional to `δ*(b - a)*(1 + |F(a)|)`, along a grid with no step longer than `δ`, converge to the
solution of `f' = G(f)`, with an error proportional to `δ`. -/
theorem recursion_order {E : Type} [NormedAddCommGroup E] [NormedSpace ℝ E] {G : E → E} {Λ : ℝ}
    (hΛ : 0 ≤ Λ) (hG : ∀ x y, ‖G x - G y‖ ≤ Λ * ‖x - y‖) {f : ℝ → E}
    (hf : ∀ t, HasDerivAt f (G (f t)) t) {T : ℝ} (hT : 0 ≤ T) {M : ℝ} (hM : 0 ≤ M) :
    ∃ K > 0, ∀ (grid : List ℝ) (t0 δ : ℝ) (F : ℝ → E), grid.Pairwise (· < ·) → t0 ∈ grid →
      Mesh grid δ → 0 ≤ δ → δ ≤ 1 → F t0 = f 0 →
      (∀ a b, StepOf grid t0 a b → t0 ≤ a → a < b → b ≤ t0 + T →
        ‖F b - F a - (b - a) • G (F a)‖ ≤ M * δ * (b - a) * (1 + ‖F a‖)) →
      ∀ t ∈ grid, t0 ≤ t → t ≤ t0 + T → ‖F t - f (t - t0)‖ ≤ K * δ := by
  have hcf : Continuous f := continuous_iff_continuousAt.2 fun t => (hf t).continuousAt
  obtain ⟨R, hR⟩ := (isCompact_Icc (a := (0 : ℝ)) (b := T)).exists_bound_of_continuousOn
    hcf.continuousOn
  have hcG : Continuous G := by
    refine LipschitzWith.continuous (K := Λ.toNNReal) (LipschitzWith.of_dist_le_mul fun x y => ?_)
    rw [dist_eq_norm, dist_eq_norm, Real.coe_toNNReal _ hΛ]
    exact hG x y
  obtain ⟨L, hL⟩ := (isCompact_Icc (a := (0 : ℝ)) (b := T)).exists_bound_of_continuousOn
    (hcG.comp hcf).continuousOn
  have hR0 : 0 ≤ R := (norm_nonneg _).trans (hR 0 ⟨le_rfl, hT⟩)
  have hL0 : 0 ≤ L := (norm_nonneg _).trans (hL 0 ⟨le_rfl, hT⟩)
  have lip : ∀ s t, 0 ≤ s → s ≤ t → t ≤ T → ‖f t - f s‖ ≤ L * (t - s) := by
    intro s t h0 hst htT
    have := (convex_Icc (0 : ℝ) T).norm_image_sub_le_of_norm_hasDerivWithin_le
      (fun x _ => (hf x).hasDerivWithinAt) (fun x hx => hL x hx) ⟨h0, hst.trans htT⟩
      ⟨h0.trans hst, htT⟩
    rwa [Real.norm_eq_abs, abs_of_nonneg (by linarith)] at this
  have taylor : ∀ s t, 0 ≤ s → s ≤ t → t ≤ T →
      ‖f t - f s - (t - s) • G (f s)‖ ≤ Λ * L * (t - s) * (t - s) := by
    intro s t h0 hst htT
    have hd : ∀ x ∈ Set.Icc s t, HasDerivWithinAt (fun x => f x - (x - s) • G (f s))
        (G (f x) - (1 : ℝ) • G (f s)) (Set.Icc s t) x := fun x _ =>
      ((hf x).sub (((hasDerivAt_id x).sub_const s).smul_const (G (f s)))).hasDerivWithinAt
    have hb : ∀ x ∈ Set.Icc s t, ‖G (f x) - (1 : ℝ) • G (f s)‖ ≤ Λ * L * (t - s) := by
      intro x hx
      rw [one_smul]
      calc _ ≤ Λ * ‖f x - f s‖ := hG _ _
        _ ≤ Λ * (L * (x - s)) := by gcongr; exact lip s x h0 hx.1 (hx.2.trans htT)
        _ ≤ Λ * (L * (t - s)) := by gcongr; exact hx.2
        _ = _ := by ring
    have := (convex_Icc s t).norm_image_sub_le_of_norm_hasDerivWithin_le hd hb
      (Set.left_mem_Icc.2 hst) (Set.right_mem_Icc.2 hst)
    rw [Real.norm_eq_abs, abs_of_nonneg (by linarith : (0:ℝ) ≤ t - s), sub_self, zero_smul,
      sub_zero, sub_right_comm] at this
    exact this
  set A := Λ + M with hA
  set D := Λ * L + M * (1 + R) with hD
  have hA0 : 0 ≤ A := by positivity
  have hD0 : 0 ≤ D := by positivity
  refine ⟨exp (A * T) * (D * T) + 1, by positivity, ?_⟩
  intro grid t0 δ F hg h0 hm hδ0 hδ1 hF0 hF t ht hle hT'
  have key := grid_induction hg h0 (Q := fun u => u ≤ t0 + T →
      ‖F u - f (u - t0)‖ ≤ exp (A * (u - t0)) * (D * δ * (u - t0))) (by simp [hF0]) ?_ t ht hle hT'
  · refine key.trans ?_
    have h1 : t - t0 ≤ T := by linarith
    have h2 : 0 ≤ t - t0 := by linarith
    calc _ ≤ exp (A * T) * (D * δ * T) := by gcongr
      _ = exp (A * T) * (D * T) * δ := by ring
      _ ≤ _ := by gcongr; linarith
  · intro a b hs ha hab ih hb
    have hd : b - a ≤ δ := by
      obtain ⟨m1, m2, ⟨-, -, h3⟩ | ⟨-, h2, -⟩⟩ := hs
      · exact hm a m1 b m2 hab h3
      · exact absurd hab (not_lt.2 h2.le)
    have hst := hF a b hs ha hab hb
    have he := ih (by linarith)
    have htay := taylor (a - t0) (b - t0) (by linarith) (by linarith) (by linarith)
    rw [show b - t0 - (a - t0) = b - a by ring] at htay
    have hfa : ‖f (a - t0)‖ ≤ R := hR _ ⟨by linarith, by linarith⟩
    set h := b - a with hh
    set e := ‖F a - f (a - t0)‖ with hedef
    have h0h : 0 ≤ h := by linarith
    have e0 : 0 ≤ e := norm_nonneg _
    have hFa : ‖F a‖ ≤ e + R := by
      calc ‖F a‖ = ‖(F a - f (a - t0)) + f (a - t0)‖ := by rw [sub_add_cancel]
        _ ≤ _ := (norm_add_le _ _).trans (by gcongr)
    have dec : F b - f (b - t0) = (F a - f (a - t0)) + h • (G (F a) - G (f (a - t0))) +
        (F b - F a - h • G (F a)) - (f (b - t0) - f (a - t0) - h • G (f (a - t0))) := by
      rw [smul_sub]; abel
    have bnd : ‖F b - f (b - t0)‖ ≤ e + h * (Λ * e) + M * δ * h * (1 + (e + R)) +
        Λ * L * h * h := by
      rw [dec]
      refine (norm_sub_le _ _).trans (add_le_add ((norm_add_le _ _).trans (add_le_add
        ((norm_add_le _ _).trans (add_le_add le_rfl ?_)) (hst.trans ?_))) htay)
      · rw [norm_smul, Real.norm_eq_abs, abs_of_nonneg h0h]
        gcongr
        exact hG _ _
      · gcongr
    have step : ‖F b - f (b - t0)‖ ≤ (1 + A * h) * e + D * δ * h := by
      refine bnd.trans ?_
      have i1 : Λ * L * h * h ≤ Λ * L * h * δ := by gcongr
      have i2 : M * δ * h * e ≤ M * 1 * h * e := by gcongr
      rw [hA, hD]
      nlinarith
    calc ‖F b - f (b - t0)‖ ≤ (1 + A * h) * e + D * δ * h := step
      _ ≤ exp (A * h) * (exp (A * (a - t0)) * (D * δ * (a - t0))) + exp (A * (b - t0)) * (D * δ * h) := by
          refine add_le_add (mul_le_mul ?_ he e0 (exp_pos _).le) (le_mul_of_one_le_left ?_ ?_)
          · have := add_one_le_exp (A * h)
            linarith
          · exact mul_nonneg (mul_nonneg hD0 hδ0) h0h
          · exact one_le_exp (mul_nonneg hA0 (by linarith))
      _ = exp (A * (b - t0)) * (D * δ * (b - t0)) := by
          have : exp (A * (b - t0)) = exp (A * h) * exp (A * (a - t0)) := by
            rw [← exp_add]; congr 1; rw [hh]; ring
          rw [this, hh]; ring

end Sdepy
