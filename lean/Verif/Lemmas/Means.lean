import Verif.Spec.Means
import Verif.Lemmas.StrongN
import Verif.Lemmas.Ode

/-!
# Means of simulated values
-/

set_option linter.unusedSectionVars false

open MeasureTheory ProbabilityTheory

namespace Sdepy

open Spec

section
variable {Ω ι : Type} [MeasurableSpace Ω] [Fintype ι] {P : Measure Ω} [IsProbabilityMeasure P]
  {a b : ℝ → (ι → ℝ) → ι → ℝ} {t0 T L : ℝ} {D : Set ℝ} {W X : ℝ → Ω → ι → ℝ} {x0 : ι → ℝ} {grid : List ℝ}

/-- One step, in the mean. -/
theorem scheme_mean_step (hT : 0 ≤ T) (hL : LipschitzCoef a b t0 T L) (hW : Drives P t0 D W)
    (hg : grid.Pairwise (· < ·)) (h0 : t0 ∈ grid) (hD : ∀ u ∈ grid, u ∈ D) (hX : IsScheme a b t0 x0 grid W X)
    {s t : ℝ} (hst : StepOf grid t0 s t) (h0s : t0 ≤ s) (hlt : s < t) (htT : t ≤ t0 + T) (i : ι) :
    (∀ i, MemLp (fun ω => X s ω i) 2 P) ∧ (∀ i, MemLp (fun ω => a s (X s ω) i) 2 P) ∧
    ∫ ω, X t ω i ∂P = ∫ ω, X s ω i ∂P + (∫ ω, a s (X s ω) i ∂P) * (t - s) := by
  have hsI : s ∈ Set.Icc t0 (t0 + T) := ⟨h0s, hlt.le.trans htT⟩
  obtain ⟨C, hC0, hC⟩ := hL.abs.growth hT (abs_nonneg L)
  obtain ⟨hk, hl, -⟩ := scheme_moments hT hC0 (fun t ht => hL.meas ht) hC hW hg h0 hD hX s hst.1 h0s hsI.2
  obtain ⟨la, lb, -⟩ := coef_memLp (P := P) (hL.meas hsI) (hC s hsI) hl
  have hsD := hD s hst.1
  have htD := hD t hst.2.1
  have hi : IndepFun (fun ω => b s (X s ω) i) (fun ω => W t ω i - W s ω i) P :=
    ((hk.comp (hL.meas hsI).2).indep hW hsD htD h0s hlt.le).comp (φ := fun x : ι → ℝ => x i)
      (ψ := fun z : ι → ℝ => z i) (measurable_pi_apply i) (measurable_pi_apply i)
  have hw := hW.memLp s hsD t htD h0s hlt.le i
  have hz := hi.integral_fun_mul_eq_mul_integral (lb i).aestronglyMeasurable hw.aestronglyMeasurable
  rw [hW.mean s hsD t htD h0s hlt.le i, mul_zero] at hz
  have hint : Integrable (fun ω => b s (X s ω) i * (W t ω i - W s ω i)) P :=
    hi.integrable_mul ((lb i).integrable one_le_two) (hw.integrable one_le_two)
  refine ⟨hl, la, ?_⟩
  have e : ∀ ω, X t ω i = X s ω i + a s (X s ω) i * (t - s) + b s (X s ω) i * (W t ω i - W s ω i) :=
    fun ω => hX.step s t hst h0s hlt ω i
  simp only [e]
  have i1 := (hl i).integrable one_le_two
  have i2 := ((la i).integrable one_le_two).mul_const (t - s)
  have i3 : Integrable (fun ω => X s ω i + a s (X s ω) i * (t - s)) P := i1.add i2
  rw [integral_add i3 hint, integral_add i1 i2, integral_mul_const, hz, add_zero]

end

section
variable {Ω ι J : Type} [MeasurableSpace Ω] [Fintype ι] [Fintype J] [Nonempty J] {P : Measure Ω}
  [IsProbabilityMeasure P] {a : ℝ → (ι → ℝ) → ι → ℝ} {b : J → ℝ → (ι → ℝ) → ι → ℝ} {t0 T L : ℝ} {x0 : ι → ℝ}
  {m v : J → ℝ} {Z : ℝ → Ω → J × ι → ℝ} {D : Set ℝ} {X : ℝ → Ω → ι → ℝ} {grid : List ℝ}

/-- The mean of affine functions. -/
theorem affine_integral {f : (ι → ℝ) → ι → ℝ} (hf : IsAffineIn f) {X : Ω → ι → ℝ}
    (hX : ∀ i, Integrable (fun ω => X ω i) P) (i : ι) :
    ∫ ω, f (X ω) i ∂P = f (fun k => ∫ ω, X ω k ∂P) i := by
  obtain ⟨p, q, e⟩ := hf
  simp only [e]
  rw [integral_add (integrable_const _) (integrable_finsetSum _ fun k _ => (hX k).const_mul _),
    integral_finsetSum _ fun k _ => (hX k).const_mul _]
  simp only [integral_const_mul, integral_const, probReal_univ, one_smul]

/-- Simulated values have a mean and a variance. -/
theorem sums_memLp (hT : 0 ≤ T) (hL : LipschitzCoefs a b t0 T L) (hv : ∀ j, 0 < v j) (hZ : Noises P t0 D m v Z)
    (hg : grid.Pairwise (· < ·)) (h0 : t0 ∈ grid) (hD : ∀ u ∈ grid, u ∈ D) (hX : AreSums a b t0 x0 grid Z X X)
    {t : ℝ} (ht : t ∈ grid) (hI : t ∈ Set.Icc t0 (t0 + T)) (i : ι) : MemLp (fun ω => X t ω i) 2 P := by
  obtain ⟨L', hL'⟩ := split_lipschitz (m := m) (fun j => (hv j).le) hL
  obtain ⟨X', hX', e⟩ := exists_split_scheme (m := m) hv hg h0 hX
  obtain ⟨C, hC0, hC⟩ := hL'.abs.growth hT (abs_nonneg L')
  rw [e t ht hI.1]
  exact total_memLp (scheme_moments hT hC0 (fun t ht => hL'.meas ht) hC (drives_standardised hv hZ) hg h0 hD hX' t ht
    hI.1 hI.2).2.1 i

/-- Means of simulated values follow the scheme where increments are replaced by their means. -/
theorem means_step (hT : 0 ≤ T) (hL : LipschitzCoefs a b t0 T L) (hv : ∀ j, 0 < v j) (hZ : Noises P t0 D m v Z)
    (hA : ∀ t ∈ Set.Icc t0 (t0 + T), IsAffineIn (meanDrift a b m t)) (hg : grid.Pairwise (· < ·)) (h0 : t0 ∈ grid)
    (hD : ∀ u ∈ grid, u ∈ D) (hX : AreSums a b t0 x0 grid Z X X)
    {s t : ℝ} (hst : StepOf grid t0 s t) (h0s : t0 ≤ s) (hlt : s < t) (htT : t ≤ t0 + T) (i : ι) :
    ∫ ω, X t ω i ∂P = ∫ ω, X s ω i ∂P + meanDrift a b m s (fun k => ∫ ω, X s ω k ∂P) i * (t - s) := by
  obtain ⟨L', hL'⟩ := split_lipschitz (m := m) (fun j => (hv j).le) hL
  obtain ⟨X', hX', e⟩ := exists_split_scheme (m := m) hv hg h0 hX
  have hW := drives_standardised hv hZ
  have hs := fun j => scheme_mean_step hT hL' hW hg h0 hD hX' hst h0s hlt htT (j, i)
  have hl := (hs (Classical.arbitrary J)).1
  have la := (hs (Classical.arbitrary J)).2.1
  have hlt' : ∀ k, Integrable (fun ω => X s ω k) P := fun k => by
    rw [e s hst.1 h0s]
    exact (total_memLp hl k).integrable one_le_two
  have es : ∀ ω, X s ω i = ∑ j, X' s ω (j, i) := fun ω => by rw [e s hst.1 h0s]; rfl
  have et : ∀ ω, X t ω i = ∑ j, X' t ω (j, i) := fun ω => by rw [e t hst.2.1 (h0s.trans hlt.le)]; rfl
  have hlX : ∀ j, Integrable (fun ω => X' t ω (j, i)) P := by
    intro j
    obtain ⟨C, hC0, hC⟩ := hL'.abs.growth hT (abs_nonneg L')
    exact ((scheme_moments hT hC0 (fun t ht => hL'.meas ht) hC hW hg h0 hD hX' t hst.2.1 (h0s.trans hlt.le)
      htT).2.1 _).integrable one_le_two
  have hsum : ∀ ω, ∑ j, splitDrift a b m s (X' s ω) (j, i) = meanDrift a b m s (X s ω) i := by
    intro ω
    have hq : (Fintype.card J : ℝ) ≠ 0 := by exact_mod_cast Fintype.card_ne_zero
    rw [e s hst.1 h0s]
    simp only [splitDrift, meanDrift, Finset.sum_add_distrib, Finset.sum_const, Finset.card_univ, nsmul_eq_mul]
    congr 1
    · field_simp
    · exact Finset.sum_congr rfl fun j _ => mul_comm _ _
  rw [← affine_integral (hA s ⟨h0s, hlt.le.trans htT⟩) hlt' i]
  simp only [← hsum]
  simp only [es, et]
  rw [integral_finsetSum _ fun j _ => hlX j, integral_finsetSum _ fun j _ => (hl (j, i)).integrable one_le_two,
    integral_finsetSum _ fun j _ => (la (j, i)).integrable one_le_two, Finset.sum_mul, ← Finset.sum_add_distrib]
  exact Finset.sum_congr rfl fun j _ => (hs j).2.2

/-- On grids that start from `t0`, means are values of the Euler method. -/
theorem means_euler (hT : 0 ≤ T) (hL : LipschitzCoefs a b t0 T L) (hv : ∀ j, 0 < v j)
    (hZ : Noises P t0 (Set.Icc t0 (t0 + T)) m v Z)
    (hA : ∀ t ∈ Set.Icc t0 (t0 + T), IsAffineIn (meanDrift a b m t)) (hg : grid.Pairwise (· < ·)) (h0 : t0 ∈ grid)
    (hD : ∀ u ∈ grid, u ∈ Set.Icc t0 (t0 + T)) (hX : AreSums a b t0 x0 grid Z X X) :
    EulerOde (meanDrift a b m) t0 x0 grid fun u i => ∫ ω, X u ω i ∂P := by
  refine ⟨?_, ?_⟩
  · funext i
    simp [hX.start]
  · intro s t hst
    obtain ⟨h0s, hlt⟩ : t0 ≤ s ∧ s < t := by
      rcases hst.2.2 with h | h
      · exact ⟨h.1, h.2.1⟩
      · have := (hD t hst.2.1).1
        linarith [h.1, h.2.1]
    funext i
    beta_reduce
    rw [means_step hT hL hv hZ hA hg h0 hD hX hst h0s hlt (hD t hst.2.1).2 i]
    simp only [Pi.add_apply, Pi.smul_apply, smul_eq_mul]
    ring

end

end Sdepy
