import Mathlib.Probability.Distributions.Gaussian.IsGaussianProcess.Basic
import Mathlib.Probability.Distributions.Gaussian.HasGaussianLaw.Independence

/-!
# Affine combinations of jointly Gaussian variables
-/

open MeasureTheory ProbabilityTheory

namespace Sdepy

variable {Ω T S : Type} [MeasurableSpace Ω] {P : Measure Ω}

/-- Affine combinations of given random variables. -/
def affSpan (X : T → Ω → ℝ) : Submodule ℝ (Ω → ℝ) :=
  Submodule.span ℝ {fun _ => 1} ⊔ Submodule.span ℝ (Set.range X)

theorem affSpan_const (X : T → Ω → ℝ) (c : ℝ) : (fun _ => c) ∈ affSpan X := by
  have : (fun _ : Ω => c) = c • fun _ => (1 : ℝ) := by funext; simp
  rw [this]
  exact Submodule.smul_mem _ _ (Submodule.mem_sup_left (Submodule.subset_span rfl))

theorem affSpan_draw (X : T → Ω → ℝ) (t : T) : X t ∈ affSpan X :=
  Submodule.mem_sup_right (Submodule.subset_span ⟨t, rfl⟩)

theorem gauss_add_const {Y : S → Ω → ℝ} (hY : IsGaussianProcess Y P) (c : S → ℝ) :
    IsGaussianProcess (fun s ω => c s + Y s ω) P where
  hasGaussianLaw I := by
    have h := hY.hasGaussianLaw I
    have hm := h.aemeasurable
    have := h.isGaussian_map
    refine ⟨?_⟩
    have e : P.map (fun ω => I.restrict fun s => c s + Y s ω) =
        (P.map fun ω => I.restrict (Y · ω)).map (fun x => I.restrict c + x) := by
      rw [AEMeasurable.map_map_of_aemeasurable (by fun_prop) hm]
      rfl
    rw [e]
    infer_instance

/-- Affine combinations of jointly Gaussian variables are jointly Gaussian. -/
theorem gauss_of_affSpan {X : T → Ω → ℝ} (hX : IsGaussianProcess X P) {Y : S → Ω → ℝ}
    (hY : ∀ s, Y s ∈ affSpan X) : IsGaussianProcess Y P := by
  have h : ∀ s, ∃ (c : ℝ) (a : T →₀ ℝ), Y s = fun ω => c + ∑ t ∈ a.support, a t * X t ω := by
    intro s
    obtain ⟨f, hf, g, hg, hfg⟩ := Submodule.mem_sup.1 (hY s)
    obtain ⟨c, rfl⟩ := Submodule.mem_span_singleton.1 hf
    obtain ⟨a, rfl⟩ := (Finsupp.mem_span_range_iff_exists_finsupp).1 hg
    refine ⟨c, a, ?_⟩
    rw [← hfg]
    funext ω
    simp [Finsupp.sum, Finset.sum_apply]
  choose c a ha using h
  have hG : IsGaussianProcess (fun s ω => ∑ t ∈ (a s).support, a s t * X t ω) P := by
    refine hX.of_isGaussianProcess fun s => ⟨(a s).support,
      ∑ t : (a s).support, (a s t) • ContinuousLinearMap.proj t, fun ω => ?_⟩
    rw [ContinuousLinearMap.sum_apply]
    simp only [ContinuousLinearMap.smul_apply, ContinuousLinearMap.proj_apply, Finset.restrict,
      smul_eq_mul]
    exact (Finset.sum_coe_sort (a s).support fun t => a s t * X t ω).symm
  have := gauss_add_const hG c
  have e : Y = fun s ω => c s + ∑ t ∈ (a s).support, a s t * X t ω := funext ha
  rw [e]
  exact this

/-- Independent Gaussian variables are a Gaussian process. -/
theorem gauss_of_indep {X : T → Ω → ℝ} (h : ∀ t, HasGaussianLaw (X t) P) (hi : iIndepFun X P) :
    IsGaussianProcess X P where
  hasGaussianLaw I := by
    have h1 : iIndepFun (fun t : I => X t) P := hi.precomp Subtype.val_injective
    exact h1.hasGaussianLaw fun t => h t

end Sdepy
