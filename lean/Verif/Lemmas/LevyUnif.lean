import Mathlib.MeasureTheory.Measure.LevyConvergence
import Mathlib.MeasureTheory.Measure.Portmanteau
import Mathlib.MeasureTheory.Measure.Prokhorov

/-!
# Laws whose characteristic functions are near one another
-/

open MeasureTheory Filter Topology
open scoped BoundedContinuousFunction

namespace Sdepy

variable {R : Measure ℝ → ℝ → Prop} {ν0 : Measure ℝ} [IsProbabilityMeasure ν0]

/-- Laws `ν`, each with an order of approximation `δ`, have characteristic functions near the one of `ν0`. -/
def ChfNear (R : Measure ℝ → ℝ → Prop) (f : ℝ → ℂ) : Prop :=
  (∀ ν δ, R ν δ → IsProbabilityMeasure ν) ∧ ∀ v, ∃ K δ0 : ℝ, 0 < K ∧ 0 < δ0 ∧
    ∀ ν δ, R ν δ → 0 < δ → δ ≤ δ0 → ‖charFun ν v - f v‖ ≤ K * δ

theorem chfNear_tendsto {f : ℝ → ℂ} (h : ChfNear R f) {ν : ℕ → Measure ℝ} {δ : ℕ → ℝ}
    (hR : ∀ n, R (ν n) (δ n)) (h0 : ∀ n, 0 < δ n) (h1 : Tendsto δ atTop (𝓝 0)) (v : ℝ) :
    Tendsto (fun n => charFun (ν n) v) atTop (𝓝 (f v)) := by
  obtain ⟨K, δ0, hK, hδ0, hv⟩ := h.2 v
  rw [tendsto_iff_norm_sub_tendsto_zero]
  refine squeeze_zero' (.of_forall fun n => norm_nonneg _) ?_
    (g := fun n => K * δ n) (by simpa using h1.const_mul K)
  filter_upwards [h1.eventually_le_const hδ0] with n hn using hv _ _ (hR n) (h0 n) hn

/-- What holds along any sequence holds uniformly. -/
theorem chfNear_unif (h : ChfNear R (charFun ν0)) {G : Measure ℝ → ℝ} {ε : ℝ} (hε : 0 < ε)
    (hG : ∀ ν : ℕ → ProbabilityMeasure ℝ, Tendsto ν atTop (𝓝 ⟨ν0, inferInstance⟩) →
      Tendsto (fun n => G (ν n)) atTop (𝓝 (G ν0))) :
    ∃ δ0, 0 < δ0 ∧ ∀ ν δ, R ν δ → 0 < δ → δ ≤ δ0 → |G ν - G ν0| ≤ ε := by
  by_contra hc
  push Not at hc
  have hc' := fun n : ℕ => hc (1 / ((n : ℝ) + 1)) (by positivity)
  choose ν δ hR h0 h1 hlt using hc'
  have hδ : Tendsto δ atTop (𝓝 0) :=
    squeeze_zero (fun n => (h0 n).le) h1 tendsto_one_div_add_atTop_nhds_zero_nat
  let ν0' : ProbabilityMeasure ℝ := ⟨ν0, inferInstance⟩
  let m : ℕ → ProbabilityMeasure ℝ := fun n => ⟨ν n, h.1 _ _ (hR n)⟩
  have ht : Tendsto m atTop (𝓝 ν0') :=
    ProbabilityMeasure.tendsto_of_tendsto_charFun fun v => chfNear_tendsto h hR h0 hδ v
  have := hG _ ht
  rw [Metric.tendsto_atTop] at this
  obtain ⟨N, hN⟩ := this ε hε
  exact absurd (hN N le_rfl) (not_lt.2 (by rw [Real.dist_eq]; exact (hlt N).le))

theorem chfNear_integral (h : ChfNear R (charFun ν0)) (f : ℝ →ᵇ ℝ) {ε : ℝ} (hε : 0 < ε) :
    ∃ δ0, 0 < δ0 ∧ ∀ ν δ, R ν δ → 0 < δ → δ ≤ δ0 → |∫ x, f x ∂ν - ∫ x, f x ∂ν0| ≤ ε :=
  chfNear_unif h (G := fun ν => ∫ x, f x ∂ν) hε fun _ hν =>
    ProbabilityMeasure.tendsto_iff_forall_integral_tendsto.1 hν f

theorem chfNear_cdf (h : ChfNear R (charFun ν0)) {x : ℝ} (hx : ν0 {x} = 0) {ε : ℝ} (hε : 0 < ε) :
    ∃ δ0, 0 < δ0 ∧ ∀ ν δ, R ν δ → 0 < δ → δ ≤ δ0 →
      |ν.real (Set.Iic x) - ν0.real (Set.Iic x)| ≤ ε :=
  chfNear_unif h (G := fun ν => ν.real (Set.Iic x)) hε fun ν hν => by
    have := ProbabilityMeasure.tendsto_measure_of_null_frontier_of_tendsto' hν (E := Set.Iic x)
      (by rw [frontier_Iic]; exact hx)
    exact (ENNReal.tendsto_toReal (measure_ne_top _ _)).comp this

/-- Limits of characteristic functions that are continuous at zero are characteristic functions. -/
theorem exists_law_of_chf {ν : ℕ → Measure ℝ} (hν : ∀ n, IsProbabilityMeasure (ν n)) {f : ℝ → ℂ}
    (hf : ContinuousAt f 0) (h : ∀ v, Tendsto (fun n => charFun (ν n) v) atTop (𝓝 (f v))) :
    ∃ ν' : Measure ℝ, IsProbabilityMeasure ν' ∧ ∀ v, charFun ν' v = f v := by
  have ht := isTightMeasureSet_of_tendsto_charFun hf h
  set m : ℕ → ProbabilityMeasure ℝ := fun n => ⟨ν n, hν n⟩ with hm
  have hc : IsCompact (closure {m n | n}) := by
    refine isCompact_closure_of_isTightMeasureSet ?_
    convert! ht using 1
    ext x
    constructor
    · rintro ⟨_, ⟨n, rfl⟩, rfl⟩
      exact ⟨n, rfl⟩
    · rintro ⟨n, rfl⟩
      exact ⟨m n, ⟨n, rfl⟩, rfl⟩
  let U : Ultrafilter ℕ := Ultrafilter.of atTop
  have hU : (U : Filter ℕ) ≤ atTop := Ultrafilter.of_le _
  obtain ⟨m', -, hm'⟩ := hc.ultrafilter_le_nhds (U.map m)
    (.trans (by simp) (monotone_principal subset_closure))
  have hm'' : Tendsto m U (𝓝 m') := hm'
  refine ⟨m', inferInstance, fun v => ?_⟩
  rw [ProbabilityMeasure.tendsto_iff_forall_integral_rclike_tendsto ℂ] at hm''
  have e := hm'' (BoundedContinuousFunction.innerProbChar v)
  simp_rw [← charFun_eq_integral_innerProbChar] at e
  exact tendsto_nhds_unique e ((h v).mono_left hU)

end Sdepy
