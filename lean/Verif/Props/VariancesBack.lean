import Verif.Props.Variances
import Verif.Props.BackLaw

/-!
# Property C105: means and variances of values simulated backwards, for linear equations
-/

set_option linter.unusedSectionVars false

open MeasureTheory ProbabilityTheory

namespace Sdepy

open Spec

section
variable {Ω ι J : Type} [MeasurableSpace Ω] [Fintype ι] [Fintype J] {P : Measure Ω}
  {a : ℝ → (ι → ℝ) → ι → ℝ} {b : J → ℝ → (ι → ℝ) → ι → ℝ} {t0 T M : ℝ} {x0 : ι → ℝ} {m v : J → ℝ}
  {p q r n w : ℝ → ι → ℝ} {y : ℝ → ι ⊕ ι → ℝ} {D : Set ℝ} {Z : ℝ → Ω → J × ι → ℝ}

theorem uncorrelated_reflect (h : UncorrelatedBack P t0 D m Z) :
    UncorrelatedNoise P t0 {u | 2 * t0 - u ∈ D} m fun u => Z (2 * t0 - u) := by
  intro s hs t ht h0 hst j k hjk i
  have := h _ hs _ ht (by linarith) (by linarith) j k hjk i
  rwa [show 2 * t0 - s - (2 * t0 - t) = t - s by ring] at this

theorem cellMoments_reflect (h : CellMomentsBack a b m v t0 T p q r n w) :
    CellMoments (reflectDrift t0 a) (reflectVol t0 b) m v t0 T (fun t => p (2 * t0 - t)) (fun t => q (2 * t0 - t))
      (fun t => r (2 * t0 - t)) (fun t => n (2 * t0 - t)) fun t => w (2 * t0 - t) where
  drift t ht x i := h.drift _ ⟨by linarith [ht.2], by linarith [ht.1]⟩ x i
  noise t ht x i := h.noise _ ⟨by linarith [ht.2], by linarith [ht.1]⟩ x i

/-- The equation for means and mean squares, with time reversed. -/
theorem momentField_reflect : (momentField (fun t => p (2 * t0 - t)) (fun t => q (2 * t0 - t)) (fun t => r (2 * t0 - t))
    (fun t => n (2 * t0 - t)) fun t => w (2 * t0 - t)) = fun t z => - -momentField p q r n w (2 * t0 - t) z := by
  funext t z c
  rw [neg_neg]
  rcases c with i | i <;> rfl

theorem momentField_neg (h : LipschitzField (momentField p q r n w) t0 T M) :
    LipschitzField (fun t z => -momentField p q r n w t z) t0 T M := by
  intro t ht u hu x z
  rw [neg_sub_neg, norm_sub_rev]
  exact h t ht u hu x z

end

section
variable {Ω ι σ O : Type} [Fintype ι] {S : SDE ℝ (ι → ℝ) O ℕ σ} {c : ℕ → ℝ → (ι → ℝ) → ι → ℝ} {t0 : ℝ} {x0 : ι → ℝ}

/-- **C105** (mean squares). Simulate an equation backwards from `t0`, with any number of sources of noise, whose
increments are independent of what happened between their start and `t0`, uncorrelated with each other, and have mean and
variance proportional to the time elapsed. If the change of each cell per unit of time elapsed, once increments of noise
are replaced by their means, is `p + q*x`, and the variance per unit of time of its noise is `r + n*x + w*x**2`, with `x`
the value of the cell, then means and mean squares of simulated values are, exactly, obtained from the initial values
and their squares by the recursion below. -/
theorem C105_squares [MeasurableSpace Ω] {P : Measure Ω} [IsProbabilityMeasure P] (hS : SDEOk S)
    (hdt : S.sources.lookup idT = some dtSource)
    (hcoef : ∀ t x, (equation S).coef t x = .ok fun id => c id t x) (hinit : S.init t0 = .ok x0)
    [Nonempty ((equation S).Stochastic idT)] {T L : ℝ} (hT : 0 ≤ T)
    (hL : LipschitzCoefs (c idT) (fun j : (equation S).Stochastic idT => c j.1) (t0 - T) T L)
    {m v : (equation S).Stochastic idT → ℝ} (hv : ∀ j, 0 < v j) {p q r n w : ℝ → ι → ℝ}
    (hc : CellMomentsBack (c idT) (fun j : (equation S).Stochastic idT => c j.1) m v t0 T p q r n w)
    {D : Set ℝ} {Z : ℝ → Ω → (equation S).Stochastic idT × ι → ℝ} (hZ : NoisesBack P t0 D m v Z)
    (hU : UncorrelatedBack P t0 D m Z)
    {fuel : ℕ} {steps : Steps ℝ} {i0 : ℤ} {tl : TArr ℝ} {grid : List ℝ} (h : Along fuel steps i0 tl grid t0)
    (hD : ∀ u ∈ grid, u ∈ D) {s s' : Ω → σ} (hs : RealisesAll (equation S) idT t0 grid Z s s') :
    ∃ (X : ℝ → Ω → ι → ℝ) (e f : ℝ → ι → ℝ),
      (∀ ω, S.call fuel steps i0 tl (s ω) = .ok (tl.data.map fun t => some
        (if S.log then S.expO (S.letX t (X t ω)) else S.letX t (X t ω)), s' ω)) ∧
      e t0 = (if S.log then S.logX x0 else x0) ∧ (∀ i, f t0 i = e t0 i ^ 2) ∧
      (∀ u z, StepOf grid t0 u z → u ≤ t0 → z < u → t0 - T ≤ z → ∀ i,
        e z i = e u i + (p u i + q u i * e u i) * (u - z) ∧
        f z i = f u i +
          (2 * (p u i * e u i + q u i * f u i) + (r u i + n u i * e u i + w u i * f u i)) * (u - z) +
          (p u i ^ 2 + 2 * p u i * q u i * e u i + q u i ^ 2 * f u i) * (u - z) ^ 2) ∧
      ∀ t ∈ tl.data, t ∈ Set.Icc (t0 - T) t0 → ∀ i, MemLp (fun ω => X t ω i) 2 P ∧
        ∫ ω, X t ω i ∂P = e t i ∧ ∫ ω, X t ω i ^ 2 ∂P = f t i ∧ Var[fun ω => X t ω i; P] = f t i - e t i ^ 2 := by
  obtain ⟨X, e, hX⟩ := C91_scheme hS hdt hcoef hinit h hs
  obtain ⟨h1, h2, h3⟩ := along_mem h
  have hL' := lipschitz_reflect hL
  have hc' := cellMoments_reflect hc
  have hZ' := noises_reflect hZ
  have hU' := uncorrelated_reflect hU
  have hX' := sums_reflect hX
  have r1 := reflectGrid_pairwise (t0 := t0) h.isGrid.1
  have r2 := reflectGrid_start h2
  have hD' : ∀ u ∈ reflectGrid t0 grid, u ∈ {u | 2 * t0 - u ∈ D} := fun u hu => hD _ (mem_reflectGrid.1 hu)
  refine ⟨X, fun u i => ∫ ω, X u ω i ∂P, fun u i => ∫ ω, X u ω i ^ 2 ∂P, e, ?_, ?_, ?_, fun t ht hI i => ?_⟩
  · funext i
    simp [hX.start]
  · intro i
    simp [hX.start]
  · intro u z huz h0u hlt hz i
    have hst : StepOf (reflectGrid t0 grid) t0 (2 * t0 - u) (2 * t0 - z) := by
      refine stepOf_reflect ?_
      rwa [reflectGrid_reflectGrid]
    have k1 := means_step hT hL' hv hZ' (cell_affine hc') r1 r2 hD' hX' hst (by linarith) (by linarith) (by linarith) i
    have k2 := squares_step hT hL' hv hZ' hU' hc' r1 r2 hD' hX' hst (by linarith) (by linarith) (by linarith) i
    rw [hc'.drift _ ⟨by linarith, by linarith⟩] at k1
    simp only [sub_sub_cancel, show 2 * t0 - z - (2 * t0 - u) = u - z by ring] at k1 k2
    exact ⟨k1, k2⟩
  · have hl := sums_memLp hT hL' hv hZ' r1 r2 hD' hX' (t := 2 * t0 - t)
      (mem_reflectGrid.2 (by rw [sub_sub_cancel]; exact h3 t ht)) ⟨by linarith [hI.2], by linarith [hI.1]⟩ i
    simp only [sub_sub_cancel] at hl
    refine ⟨hl, rfl, rfl, ?_⟩
    rw [variance_eq_sub hl]
    rfl

/-- **C105** (order one). For the same equations, means and mean squares of all the solutions, for times before `t0`, are
given functions of time, that solve the ordinary differential equation `de = -(p + q*e)`,
`df = -(2*(p*e + q*f) + (r + n*e + w*f))`; means, mean squares and variances of values simulated backwards differ from those
of the solutions at most by a constant times the longest step, whatever the timeline and the steps. -/
theorem C105_order (hS : SDEOk S) (hdt : S.sources.lookup idT = some dtSource)
    (hcoef : ∀ t x, (equation S).coef t x = .ok fun id => c id t x) (hinit : S.init t0 = .ok x0)
    [Nonempty ((equation S).Stochastic idT)] {T L M : ℝ} (hT : 0 < T)
    (hL : LipschitzCoefs (c idT) (fun j : (equation S).Stochastic idT => c j.1) (t0 - T) T L)
    {m v : (equation S).Stochastic idT → ℝ} (hv : ∀ j, 0 < v j) {p q r n w : ℝ → ι → ℝ}
    (hc : CellMomentsBack (c idT) (fun j : (equation S).Stochastic idT => c j.1) m v t0 T p q r n w)
    (hM : LipschitzField (momentField p q r n w) t0 T M) :
    ∃ (y : ℝ → ι ⊕ ι → ℝ) (K : ℝ), 0 ≤ K ∧
      SolvesOde (fun t z => -momentField p q r n w t z) t0 T
        (Sum.elim (if S.log then S.logX x0 else x0) fun i => (if S.log then S.logX x0 else x0) i ^ 2) y ∧
      ∀ {Ω : Type} [MeasurableSpace Ω] {P : Measure Ω} [IsProbabilityMeasure P]
        {Z : ℝ → Ω → (equation S).Stochastic idT × ι → ℝ}, NoisesBack P t0 (Set.Icc (t0 - T) t0) m v Z →
        UncorrelatedBack P t0 (Set.Icc (t0 - T) t0) m Z →
        (∀ {Y : ℝ → Ω → ι → ℝ}, SolvesBack P (c idT) (fun j : (equation S).Stochastic idT => c j.1) t0 T
          (if S.log then S.logX x0 else x0) Z Y → ∀ t ∈ Set.Icc (t0 - T) t0, ∀ i,
            ∫ ω, Y t ω i ∂P = y t (.inl i) ∧ ∫ ω, Y t ω i ^ 2 ∂P = y t (.inr i) ∧
            Var[fun ω => Y t ω i; P] = y t (.inr i) - y t (.inl i) ^ 2) ∧
        ∀ {fuel : ℕ} {steps : Steps ℝ} {i0 : ℤ} {tl : TArr ℝ} {grid : List ℝ} {δ : ℝ} {s s' : Ω → σ}, 0 ≤ δ →
          Along fuel steps i0 tl grid t0 → Mesh grid δ → RealisesAll (equation S) idT t0 grid Z s s' →
          ∃ X : ℝ → Ω → ι → ℝ,
            (∀ ω, S.call fuel steps i0 tl (s ω) = .ok (tl.data.map fun t => some
              (if S.log then S.expO (S.letX t (X t ω)) else S.letX t (X t ω)), s' ω)) ∧
            ∀ t ∈ tl.data, t ∈ Set.Icc (t0 - T) t0 → ∀ i,
              |∫ ω, X t ω i ∂P - y t (.inl i)| ≤ K * δ ∧ |∫ ω, X t ω i ^ 2 ∂P - y t (.inr i)| ≤ K * δ ∧
              |Var[fun ω => X t ω i; P] - (y t (.inr i) - y t (.inl i) ^ 2)| ≤ K * δ := by
  have hMn := momentField_neg hM
  have hL' := lipschitz_reflect hL
  have hc' := cellMoments_reflect hc
  obtain ⟨y, hy⟩ := exists_ode hMn hT
    (Sum.elim (if S.log then S.logX x0 else x0) fun i => (if S.log then S.logX x0 else x0) i ^ 2)
  have hM' := hMn.reflect
  have hy' := hy.reflect
  beta_reduce at hM' hy'
  rw [← momentField_reflect] at hM' hy'
  obtain ⟨K, hK, herr⟩ := moments_error hT hL' hv hc' hM' hy'
  refine ⟨y, K, hK, hy, ?_⟩
  intro Ω _ P _ Z hZ hU
  have hZ' := noises_reflect hZ
  have hU' := uncorrelated_reflect hU
  rw [reflect_Icc] at hZ' hU'
  refine ⟨fun hY t ht i => ?_, ?_⟩
  · have := solution_moments hT hL' hv hc' hM' hy' hZ' hU' (solves_reflect hY) (t := 2 * t0 - t)
      ⟨by linarith [ht.2], by linarith [ht.1]⟩ i
    simpa only [sub_sub_cancel] using this
  intro fuel steps i0 tl grid δ s s' hδ ha hm hs
  obtain ⟨X, e, hX⟩ := C91_scheme hS hdt hcoef hinit ha hs
  obtain ⟨-, h2, h3⟩ := along_mem ha
  obtain ⟨g, g1, g2, g3, g4, g5⟩ := restrict_grid_back hT.le ha.isGrid.1 h2 hm hX
  refine ⟨X, e, fun t ht hI i => ?_⟩
  have := (herr hZ' hU' hδ (reflectGrid_pairwise g1) (reflectGrid_start g2) (fun u hu => by
      have := ((g3 _).1 (mem_reflectGrid.1 hu)).2
      exact ⟨by linarith [this.2], by linarith [this.1]⟩) (reflectGrid_mesh g4) (sums_reflect g5) (2 * t0 - t)
    (mem_reflectGrid.2 (by rw [sub_sub_cancel]; exact (g3 t).2 ⟨h3 t ht, hI⟩)) i).2
  simpa only [sub_sub_cancel] using this

end

section
variable {ι σ O : Type} [Fintype ι] [MeasurableSpace σ] {μ : Measure σ} [IsProbabilityMeasure μ]
  {S : SDE ℝ (ι → ℝ) O ℕ σ} {c : ℕ → ℝ → (ι → ℝ) → ι → ℝ} {t0 : ℝ} {x0 : ι → ℝ}
  {law : (equation S).Stochastic idT → ℝ → Measure (ι → ℝ)}

/-- **C105** (random generators). The same for simulations backwards that draw the increments of noise from a random
generator, those of each source being independent of those of the others: means and variances of simulated values, over
the states of the generator, differ from those of solutions at most by a constant times the longest step. -/
theorem C105_draws (hS : SDEOk S) (hdt : S.sources.lookup idT = some dtSource)
    (hcoef : ∀ t x, (equation S).coef t x = .ok fun id => c id t x) (hinit : S.init t0 = .ok x0)
    [Nonempty ((equation S).Stochastic idT)] (hdraw : (equation S).DrawsNoiseBack idT μ law) {T L M : ℝ} (hT : 0 < T)
    (hL : LipschitzCoefs (c idT) (fun j : (equation S).Stochastic idT => c j.1) (t0 - T) T L)
    {m v : (equation S).Stochastic idT → ℝ} (hv : ∀ j, 0 < v j) (hmo : ∀ j, HasMoments (law j) (m j) (v j))
    {p q r n w : ℝ → ι → ℝ}
    (hc : CellMomentsBack (c idT) (fun j : (equation S).Stochastic idT => c j.1) m v t0 T p q r n w)
    (hM : LipschitzField (momentField p q r n w) t0 T M) :
    ∃ K ≥ 0, ∀ {Ω : Type} [MeasurableSpace Ω] {P : Measure Ω} [IsProbabilityMeasure P]
      {Z : ℝ → Ω → (equation S).Stochastic idT → ι → ℝ} {Y : ℝ → Ω → ι → ℝ},
      IncrementsBack P t0 (Set.Icc (t0 - T) t0) (fun h => Measure.pi fun j => law j h) Z →
      SolvesBack P (c idT) (fun j : (equation S).Stochastic idT => c j.1) t0 T (if S.log then S.logX x0 else x0)
        (fun u ω p => Z u ω p.1 p.2) Y →
      ∀ {fuel : ℕ} {steps : Steps ℝ} {i0 : ℤ} {tl : TArr ℝ} {grid : List ℝ} {δ : ℝ}, 0 ≤ δ →
        Along fuel steps i0 tl grid t0 → Mesh grid δ →
        ∃ (X : ℝ → σ → ι → ℝ) (st : σ → σ),
          (∀ s, S.call fuel steps i0 tl s = .ok (tl.data.map fun t => some
            (if S.log then S.expO (S.letX t (X t s)) else S.letX t (X t s)), st s)) ∧
          ∀ t ∈ tl.data, t ∈ Set.Icc (t0 - T) t0 → ∀ i, MemLp (fun s => X t s i) 2 μ ∧
            |∫ s, X t s i ∂μ - ∫ ω, Y t ω i ∂P| ≤ K * δ ∧
            |Var[fun s => X t s i; μ] - Var[fun ω => Y t ω i; P]| ≤ K * δ := by
  have hMn := momentField_neg hM
  have hL' := lipschitz_reflect hL
  have hc' := cellMoments_reflect hc
  obtain ⟨y, hy⟩ := exists_ode hMn hT
    (Sum.elim (if S.log then S.logX x0 else x0) fun i => (if S.log then S.logX x0 else x0) i ^ 2)
  have hM' := hMn.reflect
  have hy' := hy.reflect
  beta_reduce at hM' hy'
  rw [← momentField_reflect] at hM' hy'
  obtain ⟨K, hK, herr⟩ := moments_error hT hL' hv hc' hM' hy'
  refine ⟨K, hK, ?_⟩
  intro Ω _ P _ Z' Y hZ' hY fuel steps i0 tl grid δ hδ ha hm
  have hprob : ∀ j h, 0 < h → IsProbabilityMeasure (law j h) := by
    intro j h hh
    obtain ⟨ν, h1, h2⟩ := hdraw j 0 (-h) (by linarith)
    have := h2 (by linarith)
    rw [neg_neg] at this
    rw [← this]
    exact h1.isProb
  have hZr := increments_reflect hZ'
  rw [reflect_Icc] at hZr
  have hN := noises_of_increments hprob hmo hZr
  have hU := uncorrelated_of_increments hprob hmo hZr
  obtain ⟨X, X', st, g, e, g1, g2, g3, g4, g5, g6, g7⟩ :=
    coupling_of_scheme_back hS hdt hcoef hinit hdraw hT.le hL hZ' ha hm
  refine ⟨X, st, e, fun t ht hI i => ?_⟩
  have hid : IdentDistrib (fun s => X t s i) (fun ω => X' (2 * t0 - t) ω i) μ P :=
    g7.comp (measurable_pi_apply (X := fun _ => ℝ) ((⟨t, ht, hI⟩ : {t : ℝ // t ∈ tl.data ∧ t ∈ Set.Icc (t0 - T) t0}), i))
  obtain ⟨k1, k2, -, k3⟩ := herr hN hU hδ g1 g2 g3 g4 g6 _ (g5 t ht hI) i
  obtain ⟨s1, -, s3⟩ := solution_moments hT hL' hv hc' hM' hy' hN hU (solves_reflect hY) (t := 2 * t0 - t)
    ⟨by linarith [hI.2], by linarith [hI.1]⟩ i
  simp only [sub_sub_cancel] at k2 k3 s1 s3
  refine ⟨hid.memLp_iff.2 k1, ?_, ?_⟩
  · rw [hid.integral_eq, s1]
    exact k2
  · rw [hid.variance_eq, s3]
    exact k3

end

/-! ### Examples -/

theorem uncorrelated_back {Ω ι J : Type} [MeasurableSpace Ω] [Fintype ι] [Fintype J] {P : Measure Ω} {t0 : ℝ} {D : Set ℝ}
    {m : J → ℝ} {Z : ℝ → Ω → J × ι → ℝ} (h : UncorrelatedNoise P t0 D m Z) :
    UncorrelatedBack P t0 {u | 2 * t0 - u ∈ D} m fun u => Z (2 * t0 - u) := by
  intro s hs t ht h0 hst j k hjk i
  have := h _ hs _ ht (by linarith) (by linarith) j k hjk i
  rwa [show 2 * t0 - t - (2 * t0 - s) = s - t by ring] at this

/-- The coefficients of `dx = 0.05*x*dt + 0.2*x*dw + 0.1*x*dj`, backwards, with jumps of mean `q` and variance `z` per unit
of time elapsed. -/
theorem exCellMomentsBack {ι : Type} [Fintype ι] (q z t0 T : ℝ) :
    CellMomentsBack (ι := ι) (fun _ x i => exCoef idT * x i) (fun (j : exIds) (_ : ℝ) x i => exCoef j.1 * x i)
      (fun j : exIds => if j.1 = idJ then q else 0) (fun j : exIds => if j.1 = idJ then z else 1) t0 T
      (fun _ _ => 0) (fun _ _ => q / 10 - 1 / 20) (fun _ _ => 0) (fun _ _ => 0) (fun _ _ => 1 / 25 + z / 100) where
  drift t _ x i := by
    rw [exSum]
    simp [exCoef, idT, idW, idJ]
    ring
  noise t _ x i := by
    rw [exSum]
    simp [exCoef, idT, idW, idJ]
    ring

/-- From `10` at time `1` back to time `0`, with two steps of one half each: the mean of the values simulated for time `0`
is `10*(1 + 0.25/2)**2`, the mean square is `100*(1 + 0.57/2 + 0.0625/4)**2`. -/
example : ∃ (Ω : Type) (_ : MeasurableSpace Ω) (P : Measure Ω) (Z : ℝ → Ω → exIds → Fin 3 → ℝ)
    (X : ℝ → Ω → Fin 3 → ℝ),
    HasLaw (fun ω => Z 0 ω - Z 1 ω) (Measure.pi fun j : exIds => Measure.pi fun _ : Fin 3 =>
      if j.1 = idJ then compoundPoisson 3 (Measure.dirac 1) else gaussianReal 0 1) P ∧
    (∀ ω, (exJumps (pathNoise fun u ω => Z u ω exW) (pathNoise fun u ω => Z u ω exJ)).call 10 .none (-1)
      ⟨[3], [0, 1 / 2, 1]⟩ ω = .ok ([some (X 0 ω), some (X (1 / 2) ω), some (X 1 ω)], ω)) ∧
    ∀ i, ∫ ω, X 0 ω i ∂P = 10 * (1 + 1 / 8) ^ 2 ∧
      Var[fun ω => X 0 ω i; P] = 100 * (1 + 57 / 200 + 1 / 64) ^ 2 - 100 * (1 + 1 / 8) ^ 4 := by
  obtain ⟨Ω, mΩ, P, Z', hP, hI, hN⟩ := exists_noises (ι := Fin 3) exIds
  obtain ⟨Z, hZ⟩ : ∃ Z : ℝ → Ω → exIds → Fin 3 → ℝ, Z = fun u => Z' (2 * 1 - u) := ⟨_, rfl⟩
  have hN' := noises_back hN
  have hU' := uncorrelated_back (exNoises_uncorrelated hI)
  have hD : {u : ℝ | 2 * 1 - u ∈ Set.Icc (1 : ℝ) (1 + 1)} = Set.Icc (1 - 1) 1 := by
    ext u
    simp only [Set.mem_setOf_eq, Set.mem_Icc]
    constructor <;> rintro ⟨h1, h2⟩ <;> constructor <;> linarith
  rw [hD] at hN' hU'
  have hL := exLipschitzN (ι := Fin 3) (exCoef idT) (fun j : exIds => exCoef j.1) (1 - 1) 1
  obtain ⟨X, e, f, h1, h2, h2', h3, h4⟩ := C105_squares
    (S := exJumps (pathNoise fun u ω => Z u ω exW) (pathNoise fun u ω => Z u ω exJ))
    (c := fun id _ x i => exCoef id * x i) (t0 := 1) (T := 1) (exJumps_ok _ _) rfl (exJumps_coef _ _) rfl zero_le_one hL
    (m := fun j : exIds => if j.1 = idJ then 3 else 0) (v := fun j : exIds => if j.1 = idJ then 3 else 1)
    (fun j => by split_ifs <;> norm_num) (exCellMomentsBack 3 3 1 1)
    (Z := fun u ω (c : exIds × Fin 3) => Z u ω c.1 c.2) (by rw [hZ]; exact hN') (by rw [hZ]; exact hU') exAlongB
    (by intro u hu; simp at hu; rcases hu with rfl | rfl | rfl <;> norm_num)
    (exJumps_realises Z (by norm_num) (by simp))
  refine ⟨Ω, mΩ, P, Z, X, ?_, h1, fun i => ?_⟩
  · have := hI.law 1 (by norm_num) 2 (by norm_num) le_rfl (by norm_num)
    norm_num at this
    rw [hZ]
    norm_num
    exact this
  · obtain ⟨s1, s1'⟩ := h3 1 (1 / 2) ⟨by simp, by simp, .inr ⟨le_rfl, by norm_num, by
      intro c hc h; simp at hc; rcases hc with rfl | rfl | rfl <;> norm_num at h⟩⟩ le_rfl (by norm_num) (by norm_num) i
    obtain ⟨s2, s2'⟩ := h3 (1 / 2) 0 ⟨by simp, by simp, .inr ⟨by norm_num, by norm_num, by
      intro c hc h; simp at hc; rcases hc with rfl | rfl | rfl <;> norm_num at h⟩⟩ (by norm_num) (by norm_num)
      (by norm_num) i
    have e1 : e 1 i = 10 := by rw [h2]; rfl
    have f1 : f 1 i = 100 := by rw [h2', e1]; norm_num
    obtain ⟨-, h5, -, h6⟩ := h4 0 (by simp) (by norm_num) i
    rw [h5, h6, s2', s2, s1', s1, f1, e1]
    constructor <;> norm_num

/-- With the Wiener source and the source of jumps of the library. -/
example : ∃ (Ω : Type) (_ : MeasurableSpace Ω) (P : Measure Ω) (Z : ℝ → Ω → exIds → Cells ([2] ++ [3]) → ℝ) (K : ℝ)
    (X : ℝ → (ℕ → Item ℝ) → Cells ([2] ++ [3]) → ℝ) (Y : ℝ → Ω → Cells ([2] ++ [3]) → ℝ) (st : (ℕ → Item ℝ) → ℕ → Item ℝ),
    SolvesBack P (fun _ x i => exCoef idT * x i) (fun (j : exIds) _ x i => exCoef j.1 * x i) 1 1
      (fun _ => 10) (fun u ω c => Z u ω c.1 c.2) Y ∧
    (∀ s, exMerton.call 10 .none (-1) ⟨[3], [0, 1 / 2, 1]⟩ s =
      .ok ([some (X 0 s), some (X (1 / 2) s), some (X 1 s)], st s)) ∧
    ∀ i, |∫ s, X 0 s i ∂exState - ∫ ω, Y 0 ω i ∂P| ≤ K * (1 / 2) ∧
      |Var[fun s => X 0 s i; exState] - Var[fun ω => Y 0 ω i; P]| ≤ K * (1 / 2) := by
  obtain ⟨Ω, mΩ, P, Z, Y, hP, hI, hY⟩ := exists_back_solution
  have hL := exLipschitzN (ι := Cells ([2] ++ [3])) (exCoef idT) (fun j : exIds => exCoef j.1) (1 - 1) 1
  obtain ⟨M, hM⟩ := momentField_const (ι := Cells ([2] ++ [3])) _ _ _ _ _ 1 1
  obtain ⟨K, -, h⟩ := C105_draws (S := exMerton) (c := fun id _ x i => exCoef id * x i) (t0 := 1) (T := 1)
    (exJumps_ok _ _) rfl (exJumps_coef _ _) rfl exMerton_back one_pos hL exMoments_back.1 exMoments_back.2
    (exCellMomentsBack _ _ 1 1) hM
  obtain ⟨X, st, e1, e2⟩ := h hI hY (δ := 1 / 2) (by norm_num) exAlongB exMeshB
  exact ⟨Ω, mΩ, P, Z, K, X, Y, st, hY, e1, fun i => (e2 0 (by simp) (by norm_num) i).2⟩

/-- The mean of the solution at time `0` is `10*exp(0.25)`, its mean square `100*exp(0.57)`. -/
example : ∃ (Ω : Type) (_ : MeasurableSpace Ω) (P : Measure Ω) (Z : ℝ → Ω → exIds → Fin 3 → ℝ) (K : ℝ)
    (X : ℝ → Ω → Fin 3 → ℝ),
    (∀ ω, (exJumps (pathNoise fun u ω => Z u ω exW) (pathNoise fun u ω => Z u ω exJ)).call 10 .none (-1)
      ⟨[3], [0, 1 / 2, 1]⟩ ω = .ok ([some (X 0 ω), some (X (1 / 2) ω), some (X 1 ω)], ω)) ∧
    ∀ i, |∫ ω, X 0 ω i ∂P - 10 * Real.exp (1 / 4)| ≤ K * (1 / 2) ∧
      |∫ ω, X 0 ω i ^ 2 ∂P - 100 * Real.exp (57 / 100)| ≤ K * (1 / 2) := by
  obtain ⟨Ω, mΩ, P, Z', hP, hI, hN⟩ := exists_noises (ι := Fin 3) exIds
  obtain ⟨Z, hZ⟩ : ∃ Z : ℝ → Ω → exIds → Fin 3 → ℝ, Z = fun u => Z' (2 * 1 - u) := ⟨_, rfl⟩
  have hN' := noises_back hN
  have hU' := uncorrelated_back (exNoises_uncorrelated hI)
  have hD : {u : ℝ | 2 * 1 - u ∈ Set.Icc (1 : ℝ) (1 + 1)} = Set.Icc (1 - 1) 1 := by
    ext u
    simp only [Set.mem_setOf_eq, Set.mem_Icc]
    constructor <;> rintro ⟨h1, h2⟩ <;> constructor <;> linarith
  rw [hD] at hN' hU'
  have hL := exLipschitzN (ι := Fin 3) (exCoef idT) (fun j : exIds => exCoef j.1) (1 - 1) 1
  obtain ⟨M, hM⟩ := momentField_const (ι := Fin 3) (fun _ => 0) (fun _ => 3 / 10 - 1 / 20) (fun _ => 0) (fun _ => 0)
    (fun _ => 1 / 25 + 3 / 100) 1 1
  obtain ⟨y, K, hK, hy, h⟩ := C105_order
    (S := exJumps (pathNoise fun u ω => Z u ω exW) (pathNoise fun u ω => Z u ω exJ))
    (c := fun id _ x i => exCoef id * x i) (t0 := 1) (T := 1) (exJumps_ok _ _) rfl (exJumps_coef _ _) rfl one_pos hL
    (m := fun j : exIds => if j.1 = idJ then 3 else 0) (v := fun j : exIds => if j.1 = idJ then 3 else 1)
    (fun j => by split_ifs <;> norm_num) (exCellMomentsBack 3 3 1 1) hM
  have hz : SolvesOde (fun t z => -momentField (ι := Fin 3) (fun _ _ => 0) (fun _ _ => 3 / 10 - 1 / 20) (fun _ _ => 0)
      (fun _ _ => 0) (fun _ _ => 1 / 25 + 3 / 100) t z) 1 1 (Sum.elim (fun _ => 10) fun _ => (10 : ℝ) ^ 2)
      (fun t => Sum.elim (fun _ => 10 * Real.exp (-1 / 4 * (t - 1))) fun _ => 100 * Real.exp (-57 / 100 * (t - 1))) := by
    refine ⟨?_, fun t _ => HasDerivAt.hasDerivWithinAt (hasDerivAt_pi.2 fun c => ?_)⟩
    · funext c
      rcases c with i | i <;> norm_num
    · have h1 : ∀ k : ℝ, HasDerivAt (fun t : ℝ => k * (t - 1)) k t := fun k => by
        simpa using ((hasDerivAt_id t).sub_const 1).const_mul k
      rcases c with i | i
      · have h2 := ((h1 (-1 / 4)).exp).const_mul 10
        refine h2.congr_deriv ?_
        simp only [Pi.neg_apply, momentField, Sum.elim_inl]
        ring
      · have h2 := ((h1 (-57 / 100)).exp).const_mul 100
        refine h2.congr_deriv ?_
        simp only [Pi.neg_apply, momentField, Sum.elim_inr, Sum.elim_inl]
        ring
  have hyt := ode_unique (momentField_neg hM) one_pos hy hz (x := 0) (by norm_num)
  obtain ⟨-, h2⟩ := h (Z := fun u ω (c : exIds × Fin 3) => Z u ω c.1 c.2) (by rw [hZ]; exact hN') (by rw [hZ]; exact hU')
  obtain ⟨X, e1, e2⟩ := h2 (δ := 1 / 2) (by norm_num) exAlongB exMeshB (exJumps_realises Z (by norm_num) (by simp))
  refine ⟨Ω, mΩ, P, Z, K, X, e1, fun i => ?_⟩
  obtain ⟨k1, k2, -⟩ := e2 0 (by simp) (by norm_num) i
  rw [hyt] at k1 k2
  norm_num at k1 k2
  norm_num
  exact ⟨k1, k2⟩

end Sdepy
