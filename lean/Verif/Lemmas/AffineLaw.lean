import Verif.Lemmas.AffineChf
import Verif.Lemmas.LevyUnif

/-!
# Laws of chains with affine characteristic functions
-/

open MeasureTheory ProbabilityTheory Real Set Filter Topology
open Complex (I)

namespace Sdepy

open Spec

/-- Values of the logarithm of `x`, and of `y`, at the points of a grid, each obtained from the preceding ones
according to the Heston equations. -/
structure HestonChain (mu sigma theta k xi rho l0 y0 : ℝ) {Ω : Type} [MeasurableSpace Ω] (P : Measure Ω)
    (grid : List ℝ) (t0 δ : ℝ) (X : ℝ → Ω → ℝ × ℝ) : Prop where
  prob : IsProbabilityMeasure P
  sorted : grid.Pairwise (· < ·)
  mem : t0 ∈ grid
  mesh : Mesh grid δ
  start : ∀ ω, X t0 ω = (l0, y0)
  meas : ∀ s ∈ grid, Measurable (X s)
  step : ∀ a b, StepOf grid t0 a b → t0 ≤ a → a < b → ∃ (Z : Ω → ℝ × ℝ) (N : Measure (ℝ × ℝ)),
    Measurable Z ∧ HasLaw Z N P ∧ CorrNormal rho |b - a| N ∧ IndepFun (X a) Z P ∧
    ∀ ω, X b ω = hestonStep mu sigma theta k xi (b - a) (X a ω) (Z ω)

/-- Laws, after a time `τ`, of the logarithm of `x`. -/
def chainLawFst (mu sigma theta k xi rho l0 y0 τ : ℝ) (ν : Measure ℝ) (δ : ℝ) : Prop :=
  ∃ (Ω : Type) (_ : MeasurableSpace Ω) (P : Measure Ω) (grid : List ℝ) (t0 : ℝ) (X : ℝ → Ω → ℝ × ℝ),
    HestonChain mu sigma theta k xi rho l0 y0 P grid t0 δ X ∧ t0 + τ ∈ grid ∧
    ν = P.map fun ω => (X (t0 + τ) ω).1

/-- Laws, after a time `τ`, of `y`. -/
def chainLawSnd (mu sigma theta k xi rho l0 y0 τ : ℝ) (ν : Measure ℝ) (δ : ℝ) : Prop :=
  ∃ (Ω : Type) (_ : MeasurableSpace Ω) (P : Measure Ω) (grid : List ℝ) (t0 : ℝ) (X : ℝ → Ω → ℝ × ℝ),
    HestonChain mu sigma theta k xi rho l0 y0 P grid t0 δ X ∧ t0 + τ ∈ grid ∧
    ν = P.map fun ω => (X (t0 + τ) ω).2

/-- A solution to the equations for the coefficients of the exponent, initially `a0` and `b0`. -/
structure Riccati (mu sigma theta k xi rho u : ℝ) (b0 : ℂ) (A B : ℝ → ℂ) : Prop where
  A0 : A 0 = 0
  B0 : B 0 = b0
  A' : ∀ t, 0 ≤ t → HasDerivAt A (I * u * mu + k * theta * B t) t
  B' : ∀ t, 0 ≤ t → HasDerivAt B (ricR sigma k xi rho u (B t)) t

section
variable {mu sigma theta k xi rho u l0 y0 T : ℝ} {A B : ℝ → ℂ} (hth : 0 < theta) (hk : 0 < k)
  (hr : |rho| ≤ 1) (hy : 0 ≤ y0)

include hth hk hr hy in
theorem chain_order {b0 : ℂ} (hAB : Riccati mu sigma theta k xi rho u b0 A B) (hb : b0.re ≤ 0) (hT : 0 ≤ T) :
    ∃ K δ0 : ℝ, 0 < K ∧ 0 < δ0 ∧ ∀ (Ω : Type) [MeasurableSpace Ω] (P : Measure Ω) (grid : List ℝ) (t0 δ : ℝ)
      (X : ℝ → Ω → ℝ × ℝ) (l0 : ℝ), HestonChain mu sigma theta k xi rho l0 y0 P grid t0 δ X → 0 < δ → δ ≤ δ0 →
      ∀ t ∈ grid, t0 ≤ t → t ≤ t0 + T →
        ‖∫ ω, Complex.exp (I * u * (X t ω).1 + b0 * (X t ω).2) ∂P -
          Complex.exp (I * u * l0 + A (t - t0) + B (t - t0) * y0)‖ ≤ K * δ := by
  obtain ⟨K, δ0, hK, hδ0, h⟩ := affine_order (mu := mu) (sigma := sigma) (theta := theta) (k := k) (xi := xi)
    (rho := rho) (u := u) hth hk hr hT (fun t ht => hAB.A' t ht.1) (fun t ht => hAB.B' t ht.1)
    (by rw [hAB.B0]; exact hb) hy
  refine ⟨K, δ0, hK, hδ0, fun Ω _ P grid t0 δ X l0 hc hδ hδ' t ht h1 h2 => ?_⟩
  have := hc.prob
  have := h Ω P grid t0 δ X l0 hc.sorted hc.mem hc.mesh hδ hδ' hc.start hc.meas hc.step t ht h1 h2
  simpa only [hAB.A0, hAB.B0, add_zero] using this

include hth hk hr hy in
theorem chainLawFst_near {τ : ℝ} (hτ : 0 ≤ τ) {f : ℝ → ℂ}
    (hf : ∀ u : ℝ, ∃ A B, Riccati mu sigma theta k xi rho u 0 A B ∧
      f u = Complex.exp (I * u * l0 + A τ + B τ * y0)) :
    ChfNear (chainLawFst mu sigma theta k xi rho l0 y0 τ) f := by
  constructor
  · rintro ν δ ⟨Ω, _, P, grid, t0, X, hc, ht, rfl⟩
    have := hc.prob
    exact Measure.isProbabilityMeasure_map (measurable_fst.comp (hc.meas _ ht)).aemeasurable
  · intro u
    obtain ⟨A, B, hAB, e⟩ := hf u
    obtain ⟨K, δ0, hK, hδ0, h⟩ := chain_order hth hk hr hy hAB (by simp) hτ
    refine ⟨K, δ0, hK, hδ0, ?_⟩
    rintro ν δ ⟨Ω, _, P, grid, t0, X, hc, ht, rfl⟩ hδ hδ'
    have := h Ω P grid t0 δ X l0 hc hδ hδ' _ ht (by linarith) le_rfl
    rw [add_sub_cancel_left] at this
    rw [e]
    convert this using 3
    have hm : Measurable fun ω => (X (t0 + τ) ω).1 := measurable_fst.comp (hc.meas _ ht)
    rw [charFun_apply_real, integral_map hm.aemeasurable (by fun_prop)]
    refine integral_congr_ae (.of_forall fun ω => ?_)
    simp only
    congr 1
    ring

include hth hk hr hy in
theorem chainLawSnd_near {τ : ℝ} (hτ : 0 ≤ τ) {f : ℝ → ℂ}
    (hf : ∀ u : ℝ, ∃ A B, Riccati mu sigma theta k xi rho 0 (I * u) A B ∧
      f u = Complex.exp (A τ + B τ * y0)) :
    ChfNear (chainLawSnd mu sigma theta k xi rho l0 y0 τ) f := by
  constructor
  · rintro ν δ ⟨Ω, _, P, grid, t0, X, hc, ht, rfl⟩
    have := hc.prob
    exact Measure.isProbabilityMeasure_map (measurable_snd.comp (hc.meas _ ht)).aemeasurable
  · intro u
    obtain ⟨A, B, hAB, e⟩ := hf u
    obtain ⟨K, δ0, hK, hδ0, h⟩ := chain_order hth hk hr hy hAB (by simp) hτ
    refine ⟨K, δ0, hK, hδ0, ?_⟩
    rintro ν δ ⟨Ω, _, P, grid, t0, X, hc, ht, rfl⟩ hδ hδ'
    have := h Ω P grid t0 δ X l0 hc hδ hδ' _ ht (by linarith) le_rfl
    rw [add_sub_cancel_left] at this
    rw [e]
    convert this using 3
    · have hm : Measurable fun ω => (X (t0 + τ) ω).2 := measurable_snd.comp (hc.meas _ ht)
      rw [charFun_apply_real, integral_map hm.aemeasurable (by fun_prop)]
      refine integral_congr_ae (.of_forall fun ω => ?_)
      simp only
      congr 1
      push_cast
      ring
    · simp

end

end Sdepy
