import Verif.Lemmas.LevyUnif
import Mathlib.Probability.CDF
import Mathlib.MeasureTheory.Integral.Bochner.Set
import Mathlib.MeasureTheory.Measure.CharacteristicFunction.TaylorExpansion

/-!
# Laws whose characteristic functions are near one another: cumulative probabilities and moments
-/

open MeasureTheory ProbabilityTheory Filter Topology Set
open scoped BoundedContinuousFunction

namespace Sdepy

theorem continuous_cdf_of_noAtoms {ν : Measure ℝ} [IsProbabilityMeasure ν] (h : ∀ x, ν {x} = 0) :
    Continuous fun x => ν.real (Iic x) := by
  have e : (fun x => ν.real (Iic x)) = cdf ν := funext fun x => (cdf_eq_real ν x).symm
  rw [e, continuous_iff_continuousAt]
  intro x
  have hm : (cdf ν).measure {x} = 0 := by rw [measure_cdf]; exact h x
  rw [StieltjesFunction.measure_singleton, ENNReal.ofReal_eq_zero] at hm
  have hl : Function.leftLim (cdf ν) x ≤ cdf ν x := (cdf ν).mono.leftLim_le le_rfl
  rw [(cdf ν).mono.continuousAt_iff_leftLim_eq_rightLim, StieltjesFunction.rightLim_eq]
  exact le_antisymm hl (by linarith)

variable {R : Measure ℝ → ℝ → Prop} {ν0 : Measure ℝ} [IsProbabilityMeasure ν0]

/-- Cumulative probabilities converge uniformly, if the limit has no atoms. -/
theorem chfNear_cdf_unif (h : ChfNear R (charFun ν0)) (hx : ∀ x, ν0 {x} = 0) {ε : ℝ} (hε : 0 < ε) :
    ∃ δ0, 0 < δ0 ∧ ∀ ν δ, R ν δ → 0 < δ → δ ≤ δ0 →
      ∀ x, |ν.real (Iic x) - ν0.real (Iic x)| ≤ ε := by
  set F : ℝ → ℝ := fun x => ν0.real (Iic x) with hF
  have hFc : Continuous F := continuous_cdf_of_noAtoms hx
  have hFm : Monotone F := fun a b hab => measureReal_mono (Iic_subset_Iic.2 hab)
  obtain ⟨n, hn⟩ := exists_nat_gt (2 / ε)
  have hn0 : (0 : ℝ) < n := lt_trans (by positivity) hn
  have hn1 : 1 / (n : ℝ) ≤ ε / 2 := by
    rw [div_lt_iff₀ hε] at hn
    rw [div_le_div_iff₀ hn0 two_pos]
    linarith
  have hb : Tendsto F atBot (𝓝 0) := by
    have := tendsto_cdf_atBot ν0
    simpa only [hF, ← cdf_eq_real] using this
  have ht : Tendsto F atTop (𝓝 1) := by
    have := tendsto_cdf_atTop ν0
    simpa only [hF, ← cdf_eq_real] using this
  have hq : ∀ i : ℕ, ∃ q : ℝ, 0 < i → i < n → F q = i / n := by
    intro i
    by_cases hi : 0 < i ∧ i < n
    · have h1 : (0 : ℝ) < i / n := by have := hi.1; positivity
      have h2 : (i : ℝ) / n < 1 := by rw [div_lt_one hn0]; exact_mod_cast hi.2
      obtain ⟨a, ha⟩ := (hb.eventually_lt_const h1).exists
      obtain ⟨b, hb'⟩ := (ht.eventually_const_lt h2).exists
      have hab : a ≤ b := by
        by_contra hc
        exact absurd (hFm (not_le.1 hc).le) (not_le.2 (ha.trans hb'))
      obtain ⟨q, -, hq⟩ := intermediate_value_Icc hab hFc.continuousOn ⟨ha.le, hb'.le⟩
      exact ⟨q, fun _ _ => hq⟩
    · exact ⟨0, fun h1 h2 => absurd ⟨h1, h2⟩ hi⟩
  choose q hq using hq
  have hδ := fun i => chfNear_cdf h (hx (q i)) (ε := ε / 2) (by positivity)
  choose d hd0 hd using hδ
  have hδ0 : ∃ δ0, 0 < δ0 ∧ ∀ i < n, δ0 ≤ d i := by
    clear hn hn0 hn1 hq hd
    induction n with
    | zero => exact ⟨1, one_pos, by simp⟩
    | succ m ih =>
      obtain ⟨δ0, h1, h2⟩ := ih
      refine ⟨min δ0 (d m), lt_min h1 (hd0 m), fun i hi => ?_⟩
      rcases Nat.lt_succ_iff_lt_or_eq.1 hi with h' | rfl
      · exact (min_le_left _ _).trans (h2 i h')
      · exact min_le_right _ _
  obtain ⟨δ0, h0, h1⟩ := hδ0
  refine ⟨δ0, h0, fun ν δ hR hδ hle x => ?_⟩
  have hP := h.1 _ _ hR
  have hGm : Monotone fun x => ν.real (Iic x) := fun a b hab => measureReal_mono (Iic_subset_Iic.2 hab)
  have hG0 : 0 ≤ ν.real (Iic x) := measureReal_nonneg
  have hG1 : ν.real (Iic x) ≤ 1 := measureReal_le_one
  have hF0 : 0 ≤ F x := measureReal_nonneg
  have hF1 : F x ≤ 1 := measureReal_le_one
  have hpt : ∀ i : ℕ, 0 < i → i < n → |ν.real (Iic (q i)) - i / n| ≤ ε / 2 := fun i hi hin => by
    have := hd i ν δ hR hδ (hle.trans (h1 i hin))
    rwa [show ν0.real (Iic (q i)) = i / n from hq i hi hin] at this
  rw [abs_le]
  show -ε ≤ ν.real (Iic x) - F x ∧ ν.real (Iic x) - F x ≤ ε
  constructor
  · -- from below
    set j := ⌈n * F x⌉₊ - 1 with hj
    by_cases hj0 : j = 0
    · have : (n : ℝ) * F x ≤ 1 := by
        have : ⌈n * F x⌉₊ ≤ 1 := by omega
        exact_mod_cast Nat.ceil_le.1 this
      have : F x ≤ 1 / n := by rw [le_div_iff₀ hn0]; linarith
      linarith
    · have hcn : ⌈n * F x⌉₊ ≤ n := Nat.ceil_le.2 (by nlinarith)
      have hjn : j < n := by omega
      have k1 : (n : ℝ) * F x ≤ j + 1 := by
        have : ⌈n * F x⌉₊ ≤ j + 1 := by omega
        exact_mod_cast Nat.ceil_le.1 this
      have k2 : (j : ℝ) < n * F x := by
        have : j < ⌈n * F x⌉₊ := by omega
        exact Nat.lt_ceil.1 this
      have k3 : F (q j) < F x := by
        rw [hq j (Nat.pos_of_ne_zero hj0) hjn, div_lt_iff₀ hn0]; linarith
      have k4 : q j ≤ x := by
        by_contra hc
        exact absurd (hFm (not_le.1 hc).le) (not_le.2 k3)
      have k5 := (abs_le.1 (hpt j (Nat.pos_of_ne_zero hj0) hjn)).1
      have k6 := hGm k4
      have k7 : F x ≤ j / n + 1 / n := by
        rw [← add_div, le_div_iff₀ hn0]; linarith
      simp only at k6
      linarith
  · set j := ⌊n * F x⌋₊ + 1 with hj
    have k1 : (n : ℝ) * F x < j := by
      have := Nat.lt_floor_add_one (n * F x)
      push_cast [hj]; exact this
    have k2 : (j : ℝ) ≤ n * F x + 1 := by
      have := Nat.floor_le (show 0 ≤ n * F x by positivity)
      push_cast [hj]; linarith
    by_cases hjn : j < n
    · have k3 : F x < F (q j) := by
        rw [hq j (by omega) hjn, lt_div_iff₀ hn0]; linarith
      have k4 : x ≤ q j := by
        by_contra hc
        exact absurd (hFm (not_le.1 hc).le) (not_le.2 k3)
      have k5 := (abs_le.1 (hpt j (by omega) hjn)).2
      have k6 := hGm k4
      have k7 : (j : ℝ) / n ≤ F x + 1 / n := by
        rw [div_le_iff₀ hn0, add_mul, one_div, inv_mul_cancel₀ hn0.ne']; linarith
      simp only at k6
      linarith
    · have : (n : ℝ) ≤ j := by exact_mod_cast not_lt.1 hjn
      have k7 : 1 ≤ F x + 1 / n := by
        have : (n : ℝ) ≤ n * F x + 1 := by linarith
        have h' : 1 = (n : ℝ) / n := (div_self hn0.ne').symm
        rw [h', div_le_iff₀ hn0, add_mul, ← h', one_div, inv_mul_cancel₀ hn0.ne']; linarith
      linarith

/-- Bounds to second moments pass to the limit. -/
theorem chfNear_memLp_two (h : ChfNear R (charFun ν0)) {C δ1 : ℝ} (hδ1 : 0 < δ1)
    (hC : ∀ ν δ, R ν δ → 0 < δ → δ ≤ δ1 → Integrable (fun x => x ^ 2) ν ∧ ∫ x, x ^ 2 ∂ν ≤ C)
    (hex : ∀ ε > 0, ∃ ν δ, R ν δ ∧ 0 < δ ∧ δ ≤ ε) : MemLp id 2 ν0 := by
  have hle : ∀ n : ℕ, ∫⁻ x, ENNReal.ofReal (min (x ^ 2) n) ∂ν0 ≤ ENNReal.ofReal (C + 1) := by
    intro n
    let f : ℝ →ᵇ ℝ := BoundedContinuousFunction.ofNormedAddCommGroup (fun x : ℝ => min (x ^ 2) n)
      (by fun_prop) n (fun x => by
        rw [Real.norm_of_nonneg (le_min (sq_nonneg _) (Nat.cast_nonneg _))]
        exact min_le_right _ _)
    obtain ⟨δ0, hδ0, h1⟩ := chfNear_integral h f one_pos
    obtain ⟨ν, δ, hR, hδ, hle⟩ := hex (min δ0 δ1) (lt_min hδ0 hδ1)
    have hP := h.1 _ _ hR
    have h2 := h1 ν δ hR hδ (hle.trans (min_le_left _ _))
    obtain ⟨h3, h4⟩ := hC ν δ hR hδ (hle.trans (min_le_right _ _))
    have h5 : ∫ x, f x ∂ν ≤ ∫ x, x ^ 2 ∂ν :=
      integral_mono (f.integrable ν) h3 fun x => min_le_left _ _
    rw [← ofReal_integral_eq_lintegral_ofReal (f := fun x => min (x ^ 2) (n : ℝ)) (f.integrable ν0)
      (.of_forall fun x => le_min (sq_nonneg _) (Nat.cast_nonneg _))]
    refine ENNReal.ofReal_le_ofReal ?_
    have h6 := (abs_le.1 h2).1
    have : ∫ x, f x ∂ν0 = ∫ x, min (x ^ 2) (n : ℝ) ∂ν0 := rfl
    linarith
  have hsup : ∫⁻ x, ENNReal.ofReal (x ^ 2) ∂ν0 ≤ ENNReal.ofReal (C + 1) := by
    have e : ∀ x : ℝ, ENNReal.ofReal (x ^ 2) = ⨆ n : ℕ, ENNReal.ofReal (min (x ^ 2) n) := by
      intro x
      refine le_antisymm ?_ (iSup_le fun n => ENNReal.ofReal_le_ofReal (min_le_left _ _))
      obtain ⟨n, hn⟩ := exists_nat_ge (x ^ 2)
      exact le_iSup_of_le n (by rw [min_eq_left hn])
    simp_rw [e]
    rw [lintegral_iSup (fun n => by fun_prop) (fun a b hab x => by
      refine ENNReal.ofReal_le_ofReal (min_le_min_left _ ?_)
      exact_mod_cast hab)]
    exact iSup_le hle
  have hm : AEStronglyMeasurable (id : ℝ → ℝ) ν0 := aestronglyMeasurable_id
  rw [memLp_two_iff_integrable_sq hm]
  refine ⟨by fun_prop, ?_⟩
  rw [hasFiniteIntegral_iff_norm]
  refine lt_of_le_of_lt (le_of_eq ?_) (hsup.trans_lt ENNReal.ofReal_lt_top)
  congr 1
  ext x
  simp

end Sdepy
